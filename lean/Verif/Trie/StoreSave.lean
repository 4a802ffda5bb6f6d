import Verif.Trie.StoreLemmas

/-!
# Saving: after a commit without failing `Save` the whole tree is in the storage
-/

namespace Verif.Trie.Store
open Verif Verif.Merkle Verif.Trie

variable {V : Type}

/-- A set of trees without hash collisions, closed under children, with the empty trie. -/
structure Ghost (E : Env V) (G : Node V → Prop) : Prop where
  empty : G (.mk [] none noChild)
  child : ∀ {p v c}, G (.mk p v c) → ∀ j, (c j).isSome = true → G (c j)
  inj : ∀ {a b}, G a → G b → nh E a = nh E b → a = b
  val : ∀ {p x c p' y c'}, G (.mk p (some x) c) → G (.mk p' (some y) c') → E.vh x = E.vh y → x = y

/-- Both adapters are present. -/
def Disk.ok (D : Disk) : Prop := D.nodes.isSome = true ∧ D.values.isSome = true

/-- Nothing of `G` is lost. -/
def Ext (E : Env V) (G : Node V → Prop) (D D' : Disk) : Prop := ∀ n, G n → Stored E D n → Stored E D' n

/-- No `Save` fails for the nodes and values of `G`. -/
def Harmless (E : Env V) (G : Node V → Prop) (F : Faults) : Prop :=
  (∀ p v c, G (.mk p v c) → F.node (nh E (.mk p v c)) = false) ∧
  (∀ p x c, G (.mk p (some x) c) → F.value (E.vh x) = false)

variable {E : Env V} {G : Node V → Prop}

theorem Ext.refl (D : Disk) : Ext E G D D := fun _ _ h => h

theorem Ext.trans {D1 D2 D3 : Disk} (h1 : Ext E G D1 D2) (h2 : Ext E G D2 D3) : Ext E G D1 D3 :=
  fun n hn h => h2 n hn (h1 n hn h)

theorem stored_absent {D : Disk} {n : Node V} (h : ¬ n.isSome = true) : Stored E D n := by
  cases n with
  | nil => trivial
  | mk p v c => exact absurd rfl h

theorem ext_of (hG : Ghost E G) {D D' : Disk}
    (hn : ∀ p v c, G (.mk p v c) → ∀ f, D.nodes = some f → f (nh E (.mk p v c)) = some (serA E p v c) →
      ∃ f', D'.nodes = some f' ∧ f' (nh E (.mk p v c)) = some (serA E p v c))
    (hv : ∀ p x c, G (.mk p (some x) c) → ∀ f, D.values = some f → f (E.vh x) = some (E.enc x) →
      ∃ f', D'.values = some f' ∧ f' (E.vh x) = some (E.enc x)) : Ext E G D D' := by
  intro n
  induction n with
  | nil => intro _ _; trivial
  | mk p v c ih =>
    intro hg ⟨⟨f, hf, hfx⟩, h2, h3, h4⟩
    refine ⟨hn p v c hg f hf hfx, ?_, h3, ?_⟩
    · rintro x rfl
      obtain ⟨f, hf, hfx⟩ := h2 x rfl
      exact hv p x c hg f hf hfx
    · intro j
      by_cases hj : (c j).isSome = true
      · exact ih j (hG.child hg j hj) (h4 j)
      · exact stored_absent hj

theorem rep_ext (hG : Ghost E G) {D D' : Disk} (h : Ext E G D D') (b : BNode V) : ∀ {a : Node V},
    (a.isSome = true → G a) → Rep E D b a → Rep E D' b a := by
  induction b with
  | nil => intro a _ hr; exact hr
  | mk i d ih =>
    intro a hg ⟨p, v, c, ha, hr⟩
    subst ha
    have hg := hg rfl
    refine ⟨p, v, c, rfl, ?_⟩
    rcases hr with hr | ⟨hi, hk⟩
    · exact Or.inl ⟨hr.hash, hr.value, hr.vhash, hr.vstream, hr.kids, hr.dirty, h _ hg hr.stored⟩
    · refine Or.inr ⟨⟨hi.pre, hi.stream, hi.value, hi.hash, fun hd => ?_⟩, fun j => ih j (hG.child hg j) (hk j)⟩
      rcases hi.clean hd with h1 | ⟨h1, h2⟩
      · exact Or.inl h1
      · exact Or.inr ⟨h1, h _ hg h2⟩

/-- The result of saving: what a successful save guarantees. -/
structure SaveOK (E : Env V) (G : Node V → Prop) (D : Disk) (r : BNode V × Disk × Bool) (a : Node V) : Prop where
  disk : r.2.1.ok
  ext : Ext E G D r.2.1
  rep : Rep E r.2.1 r.1 a
  stored : ∀ p v c, a = .mk p v c → isEmpty p v c = false → Stored E r.2.1 a
  done : r.2.2 = true

theorem dirty_full {D : Disk} {i : Info V} {d : Nib → BNode V} {p : List Nib} {v : Option V} {c : Nib → Node V}
    (h : Rep E D (.mk i d) (.mk p v c)) (hd : i.dirty = true) : Full E D i d p v c := by
  obtain ⟨p', v', c', he, h⟩ := h
  cases he
  rcases h with h | ⟨hi, hk⟩
  · have := h.dirty; rw [hd] at this; simp at this
  · refine ⟨hi, ?_, hk⟩
    rcases hi.value with ⟨h1, -⟩ | ⟨-, h2, -⟩
    · exact h1
    · rw [hd] at h2; simp at h2

theorem serB_eq {D : Disk} {i : Info V} {d : Nib → BNode V} {p : List Nib} {v : Option V} {c : Nib → Node V}
    (h : Full E D i d p v c) : serB E i d = serA E p v c := by
  obtain ⟨-, -, -, -, hs, -⟩ := valueHashed_some h.value h.vhash h.ok.stream
  rw [serB, serA, headerB_eq h.ok.pre h.value h.kids, kidIds_eq h.kids, h.value]
  congr 1
  · congr 1
    have : ∀ l : List Nib, (∀ j ∈ l, (c j).isSome = true) →
        l.flatMap (fun j => hashOf E (d j)) = l.flatMap fun j => nh E (c j) := by
      intro l
      induction l with
      | nil => intro _; rfl
      | cons a l ih =>
        intro hl
        rw [List.flatMap_cons, List.flatMap_cons, ih (fun j hj => hl j (List.mem_cons_of_mem _ hj)),
          hashOf_rep (h.kids a) (hl a List.mem_cons_self)]
    exact this _ fun j hj => (mem_childIds c j).1 hj
  · cases v with
    | none => simp
    | some x => simp [(hs rfl).1]

theorem Full.valueHashed {D : Disk} {i : Info V} {d : Nib → BNode V} {p : List Nib} {v : Option V} {c : Nib → Node V}
    (h : Full E D i d p v c) : Full E D (Store.valueHashed E i) d p v c := by
  obtain ⟨w1, -, w2, w3, -, w4, w5, w6, -⟩ := valueHashed_some h.value h.vhash h.ok.stream
  refine ⟨⟨by rw [w4, h.ok.pre], w3, Or.inl ⟨w1, w2⟩, by rw [w5]; exact h.ok.hash, by rw [w6, w5]; exact h.ok.clean⟩,
    w1, h.kids⟩

theorem hashed_full {D : Disk} {i : Info V} {d : Nib → BNode V} {p : List Nib} {v : Option V} {c : Nib → Node V}
    (h : Full E D i d p v c) : ∃ i' d', hashed E (.mk i d) = .mk i' d' ∧ i'.hash = some (nh E (.mk p v c)) ∧
      Full E D i' d' p v c := by
  obtain ⟨-, -, h3⟩ := hashed_spec _ h.rep
  obtain ⟨i', d', he, hh, -, hf⟩ := h3 i d rfl
  refine ⟨i', d', he, hh, ?_⟩
  cases hn : i.hash with
  | none => exact hf p v c rfl hn
  | some x =>
    rw [hashed, hn] at he
    simp at he
    rw [← he.1, ← he.2]
    exact h

theorem saveValue_spec (hE : E.Lawful) (hG : Ghost E G) {F : Faults} (hF : Harmless E G F) {D : Disk} (hD : D.ok)
    {i : Info V} {d : Nib → BNode V} {p : List Nib} {v : Option V} {c : Nib → Node V} (h : Full E D i d p v c)
    (hvh : v.isSome = true → i.vhash = v.map E.vh ∧ i.vstream = v.map E.enc) (hg : G (.mk p v c)) :
    (saveValue F D i).2 = true ∧ (saveValue F D i).1.ok ∧ Ext E G D (saveValue F D i).1 ∧
    (saveValue F D i).1.nodes = D.nodes ∧
    ∀ x, v = some x → ∃ f, (saveValue F D i).1.values = some f ∧ f (E.vh x) = some (E.enc x) := by
  rw [saveValue, h.value]
  cases v with
  | none =>
    simp only [Option.isSome_none, Bool.false_eq_true, false_and, if_false]
    exact ⟨by trivial, hD, Ext.refl D, by trivial, by simp⟩
  | some x =>
    obtain ⟨h1, h2⟩ := hvh rfl
    rw [h1, h2]
    simp only [Option.map_some, Option.getD_some, Option.isSome_some, hE.hv, Nat.le_refl, and_self, if_true, saveTo]
    obtain ⟨fv, hfv⟩ := Option.isSome_iff_exists.1 hD.2
    simp only [hfv, hF.2 p x c hg, Bool.false_eq_true, if_false]
    refine ⟨by trivial, ⟨hD.1, rfl⟩, ?_, by trivial, ?_⟩
    · apply ext_of hG
      · intro p v c _ f hf hfx
        exact ⟨f, hf, hfx⟩
      · intro p' y c' hg' f hf hfx
        rw [hfv] at hf
        cases hf
        refine ⟨_, rfl, ?_⟩
        split
        · rename_i he
          rw [hG.val hg' hg he]
        · exact hfx
    · intro y hy
      cases hy
      exact ⟨_, rfl, by simp⟩

theorem saveOne_spec (hE : E.Lawful) (hG : Ghost E G) {F : Faults} (hF : Harmless E G F) {D : Disk} (hD : D.ok)
    {i : Info V} {d : Nib → BNode V} {p : List Nib} {v : Option V} {c : Nib → Node V} (h : Full E D i d p v c)
    (hg : G (.mk p v c)) (hst : ∀ j, Stored E D (c j)) : SaveOK E G D (saveOne E F D i d) (.mk p v c) := by
  obtain ⟨-, -, -, -, hs, -⟩ := valueHashed_some h.value h.vhash h.ok.stream
  have h1 := h.valueHashed
  obtain ⟨s1, s2, s3, s4, s5⟩ := saveValue_spec hE hG hF hD h1 hs hg
  obtain ⟨i2, d2, he, hh, h2⟩ := hashed_full h1
  obtain ⟨fn, hfn⟩ := Option.isSome_iff_exists.1 hD.1
  rw [saveOne]
  simp only
  rw [if_neg (by rw [s1]; simp), he, serB_eq h1]
  simp only [hh, Option.getD_some, saveTo, s4, hfn, hF.1 p v c hg, Bool.false_eq_true, if_false, Bool.true_eq_false]
  have hext : Ext E G (saveValue F D (valueHashed E i)).1
      (Disk.mk (some fun k => if k = nh E (.mk p v c) then some (serA E p v c) else fn k)
        (saveValue F D (valueHashed E i)).1.values) := by
    apply ext_of hG
    · intro p' v' c' hg' f hf hfx
      rw [s4, hfn] at hf
      cases hf
      refine ⟨_, rfl, ?_⟩
      split
      · rename_i heq
        have := hG.inj hg' hg heq
        cases this
        rfl
      · exact hfx
    · intro p' x c' _ f hf hfx
      exact ⟨f, hf, hfx⟩
  have hext' := s3.trans hext
  have hchild : ∀ j, Stored E (Disk.mk (some fun k => if k = nh E (.mk p v c) then some (serA E p v c) else fn k)
        (saveValue F D (valueHashed E i)).1.values) (c j) := by
    intro j
    by_cases hj : (c j).isSome = true
    · exact hext' _ (hG.child hg j hj) (hst j)
    · exact stored_absent hj
  have hstored : isEmpty p v c = false → Stored E (Disk.mk (some fun k => if k = nh E (.mk p v c) then some (serA E p v c) else fn k)
        (saveValue F D (valueHashed E i)).1.values) (.mk p v c) := by
    intro hne
    refine ⟨⟨_, rfl, by simp⟩, s5, ?_, hchild⟩
    intro heq
    have := hG.inj hg hG.empty heq
    rw [Node.mk.injEq] at this
    obtain ⟨rfl, rfl, rfl⟩ := this
    have h0 : isEmpty [] none (noChild (V := V)) = true := (isEmpty_iff _ _ _).2 ⟨rfl, rfl, fun _ => rfl⟩
    rw [h0] at hne
    simp at hne
  refine ⟨⟨rfl, s2.2⟩, hext', ?_, ?_, by trivial⟩
  · refine ⟨p, v, c, rfl, Or.inr ⟨⟨h2.ok.pre, h2.ok.stream, Or.inl ⟨h2.value, h2.vhash⟩, ?_, ?_⟩, ?_⟩⟩
    · intro x hx
      exact h2.ok.hash x (hh.trans hx)
    · intro _
      by_cases hem : isEmpty p v c = true
      · exact Or.inl hem
      · exact Or.inr ⟨by trivial, hstored (by simpa using hem)⟩
    · intro j
      apply rep_ext hG hext' _ (fun hj => hG.child hg j hj)
      exact (hashed_spec _ (h2.kids j)).1
  · intro p' v' c' heq hne
    cases heq
    exact hstored hne

theorem clean_stored {D : Disk} {i : Info V} {d : Nib → BNode V} {p : List Nib} {v : Option V} {c : Nib → Node V}
    (h : Rep E D (.mk i d) (.mk p v c)) (hd : i.dirty = false) (hne : isEmpty p v c = false) : Stored E D (.mk p v c) := by
  obtain ⟨p', v', c', he, h⟩ := h
  cases he
  rcases h with h | ⟨hi, -⟩
  · exact h.stored
  · rcases hi.clean hd with h | h
    · rw [h] at hne; simp at hne
    · exact h.2

theorem saveHere_spec (hE : E.Lawful) (hG : Ghost E G) {F : Faults} (hF : Harmless E G F) (L : Limits) (g : UInt64)
    {D : Disk} (hD : D.ok) {i : Info V} {d : Nib → BNode V} {p : List Nib} {v : Option V} {c : Nib → Node V}
    (h : Rep E D (.mk i d) (.mk p v c)) (hg : G (.mk p v c)) (hst : i.dirty = true → ∀ j, Stored E D (c j)) :
    SaveOK E G D (saveHere E F L g D i d) (.mk p v c) := by
  rw [saveHere]
  cases hd : i.dirty with
  | true =>
    simp only [if_true]
    exact saveOne_spec hE hG hF hD (dirty_full h hd) hg (hst hd)
  | false =>
    simp only [Bool.false_eq_true, if_false]
    have key : ∀ b, Rep E D b (.mk p v c) → SaveOK E G D (b, D, true) (.mk p v c) := by
      intro b hb
      refine ⟨hD, Ext.refl D, hb, ?_, rfl⟩
      intro p' v' c' he hne
      cases he
      exact clean_stored h hd hne
    split
    · exact key _ (collapse_spec hE h hd)
    · split
      · exact key _ (collapseValue_spec hE h hd)
      · exact key _ h

/-- The children are saved one after the other. -/
theorem saveKids_spec (hG : Ghost E G) {F : Faults} (L : Limits) (g : UInt64) {D : Disk} {d : Nib → BNode V}
    {c : Nib → Node V} (hk : ∀ j, Rep E D (d j) (c j)) (hg : ∀ j, (c j).isSome = true → G (c j))
    (ih : ∀ j, (c j).isSome = true → ∀ D', D'.ok → Rep E D' (d j) (c j) →
      SaveOK E G D' (save E F L g (d j) D') (c j) ∧ Stored E (save E F L g (d j) D').2.1 (c j)) :
    ∀ (l : List Nib) (s : (Nib → BNode V) × Disk) (done : Nib → Prop), s.2.ok → Ext E G D s.2 →
      (∀ j, Rep E s.2 (s.1 j) (c j)) → (∀ j, done j → Stored E s.2 (c j)) →
      let r := l.foldl (fun (s : (Nib → BNode V) × Disk) j =>
        if (d j).isSome then
          let x := save E F L g (d j) s.2
          (setKid s.1 j x.1, x.2.1)
        else s) s
      r.2.ok ∧ Ext E G D r.2 ∧ (∀ j, Rep E r.2 (r.1 j) (c j)) ∧ ∀ j, (done j ∨ j ∈ l) → Stored E r.2 (c j) := by
  intro l
  induction l with
  | nil =>
    intro s done h1 h2 h3 h4
    exact ⟨h1, h2, h3, fun j hj => h4 j (by simpa using hj)⟩
  | cons k l ihl =>
    intro s done h1 h2 h3 h4
    rw [List.foldl_cons]
    have hstep : ∃ s', (if (d k).isSome then
          let x := save E F L g (d k) s.2
          (setKid s.1 k x.1, x.2.1)
        else s) = s' ∧ s'.2.ok ∧ Ext E G D s'.2 ∧ (∀ j, Rep E s'.2 (s'.1 j) (c j)) ∧
        ∀ j, (done j ∨ j = k) → Stored E s'.2 (c j) := by
      refine ⟨_, rfl, ?_⟩
      rw [(hk k).isSome]
      by_cases hck : (c k).isSome = true
      · rw [if_pos hck]
        simp only
        obtain ⟨S, hst⟩ := ih k hck s.2 h1 (rep_ext hG h2 _ (hg k) (hk k))
        refine ⟨S.disk, h2.trans S.ext, ?_, ?_⟩
        · intro j
          by_cases hj : j = k
          · subst hj; simpa [setKid] using S.rep
          · simpa [setKid, hj] using rep_ext hG S.ext _ (hg j) (h3 j)
        · rintro j (hj | rfl)
          · by_cases hcj : (c j).isSome = true
            · exact S.ext _ (hg j hcj) (h4 j hj)
            · exact stored_absent hcj
          · exact hst
      · rw [if_neg hck]
        refine ⟨h1, h2, h3, ?_⟩
        rintro j (hj | rfl)
        · exact h4 j hj
        · exact stored_absent hck
    obtain ⟨s', he, a1, a2, a3, a4⟩ := hstep
    rw [he]
    obtain ⟨b1, b2, b3, b4⟩ := ihl s' (fun j => done j ∨ j = k) a1 a2 a3 a4
    refine ⟨b1, b2, b3, ?_⟩
    intro j hj
    apply b4 j
    rcases hj with hj | hj
    · exact Or.inl (Or.inl hj)
    · rcases List.mem_cons.1 hj with hj | hj
      · exact Or.inl (Or.inr hj)
      · exact Or.inr hj

theorem fold_nil (F : Faults) (L : Limits) (g : UInt64) {d : Nib → BNode V} (hd : ∀ j, d j = .nil) (D : Disk) (l : List Nib) :
    l.foldl (fun (s : (Nib → BNode V) × Disk) j =>
        if (d j).isSome then
          let x := save E F L g (d j) s.2
          (setKid s.1 j x.1, x.2.1)
        else s) (d, D) = (d, D) := by
  induction l with
  | nil => rfl
  | cons k l ih =>
    rw [List.foldl_cons, hd k]
    simp only [BNode.isSome, Bool.false_eq_true, if_false]
    exact ih

/-- Saving a tree whose `Save` calls do not fail puts all of it into the storage. -/
theorem save_spec (hE : E.Lawful) (hG : Ghost E G) {F : Faults} (hF : Harmless E G F) (L : Limits) (g : UInt64)
    (b : BNode V) : ∀ {a : Node V} {D : Disk}, D.ok → Rep E D b a → WFRoot a → G a →
      SaveOK E G D (save E F L g b D) a := by
  induction b with
  | nil =>
    intro a D _ hr hw
    rw [show a = .nil from hr] at hw
    exact hw.elim
  | mk i d ih =>
    intro a D hD hr hw hg
    have hr0 := hr
    obtain ⟨p, v, c, rfl, hr⟩ := hr
    rw [save]
    rcases hr with hr | ⟨hi, hk⟩
    · simp only [fold_nil F L g hr.kids]
      apply saveHere_spec hE hG hF L g hD hr0 hg
      intro hd
      rw [hr.dirty] at hd
      simp at hd
    · have hw' : ∀ j, WF (c j) := WFRoot.child hw
      obtain ⟨b1, b2, b3, b4⟩ := saveKids_spec hG (F := F) L g hk (fun j hj => hG.child hg j hj) (fun j hj D' hD' hr' => by
        have S := ih j hD' hr' (WF.root (hw' j) hj) (hG.child hg j hj)
        refine ⟨S, ?_⟩
        have hwj := hw' j
        cases hcj : c j with
        | nil => trivial
        | mk p' v' c' =>
          rw [hcj] at hwj
          rw [← hcj]
          exact S.stored p' v' c' hcj (not_empty_of_WF hwj)) nibbles (d, D) (fun _ => False) hD (Ext.refl D) hk (by simp)
      have hrep : Rep E (nibbles.foldl (fun (s : (Nib → BNode V) × Disk) j =>
          if (d j).isSome then
            let x := save E F L g (d j) s.2
            (setKid s.1 j x.1, x.2.1)
          else s) (d, D)).2 (.mk i (nibbles.foldl (fun (s : (Nib → BNode V) × Disk) j =>
          if (d j).isSome then
            let x := save E F L g (d j) s.2
            (setKid s.1 j x.1, x.2.1)
          else s) (d, D)).1) (.mk p v c) := by
        refine ⟨p, v, c, rfl, Or.inr ⟨⟨hi.pre, hi.stream, hi.value, hi.hash, fun hd => ?_⟩, b3⟩⟩
        rcases hi.clean hd with h1 | ⟨h1, h2⟩
        · exact Or.inl h1
        · exact Or.inr ⟨h1, b2 _ hg h2⟩
      have S := saveHere_spec hE hG hF L g b1 hrep hg (fun _ j => b4 j (Or.inr (mem_nibbles j)))
      exact ⟨S.disk, b2.trans S.ext, S.rep, S.stored, S.done⟩

end Verif.Trie.Store
