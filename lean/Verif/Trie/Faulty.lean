import Verif.Trie.StoreProps

/-! # Writes that fail (C166)

`iterateSave` (`/repo/trie/trie.go:669-692`) goes on when the nodes of a child cannot be saved, and saves the parent all the same. Afterwards
the parent is clean and stored, though its child is neither. The invariant of `Trie/StoreLemmas.lean`, where everything under a clean
node is stored, does not hold any more. The one here is weaker: a clean node is stored *itself*, and so is its value (`Own`). As long as no
node is old enough to be reduced to its hash by a commit, this is enough for all calls, and a later commit saves what is missing, for the
nodes that were not saved stay dirty. Model: `Trie/Store.lean`; nothing is modelled anew here but sequences of calls. -/

namespace Verif.Trie.Store.Faulty
open Verif Verif.Merkle Verif.Trie Verif.Trie.Store

variable {V : Type}

/-- A node is in the storage under its hash, and its value under its value hash; nothing is said of its children. -/
def Own (E : Env V) (D : Disk) (p : List Nib) (v : Option V) (c : Nib → Node V) : Prop :=
  (∃ f, D.nodes = some f ∧ f (nh E (.mk p v c)) = some (serA E p v c)) ∧
  (∀ x, v = some x → ∃ f, D.values = some f ∧ f (E.vh x) = some (E.enc x)) ∧
  nh E (.mk p v c) ≠ emptyHash E

variable {E : Env V} {D : Disk}

theorem own {p : List Nib} {v : Option V} {c : Nib → Node V} (h : Stored E D (.mk p v c)) : Own E D p v c := ⟨h.1, h.2.1, h.2.2.1⟩

/-- The fields of an expanded node are those of the tree. -/
structure InfoOK (E : Env V) (D : Disk) (i : Info V) (p : List Nib) (v : Option V) (c : Nib → Node V) : Prop where
  pre : i.pre = p
  stream : i.vstream = none ∨ i.vstream = v.map E.enc
  value : (i.value = v ∧ (i.vhash = none ∨ i.vhash = v.map E.vh)) ∨
    (i.value = none ∧ i.dirty = false ∧ ∃ x, v = some x ∧ i.vhash = some (E.vh x))
  hash : ∀ h, i.hash = some h → h = nh E (.mk p v c)
  clean : i.dirty = false → isEmpty p v c = true ∨ (i.hash = some (nh E (.mk p v c)) ∧ Own E D p v c)

/-- The node `b` stands for the tree `a`. -/
def Rep (E : Env V) (D : Disk) : BNode V → Node V → Prop
  | .nil, a => a = .nil
  | .mk i d, a => ∃ p v c, a = .mk p v c ∧
      (HashOnly E D i d a ∨ (InfoOK E D i p v c ∧ ∀ j, Rep E D (d j) (c j)))

/-- A completely expanded node (its children may still be collapsed). -/
structure Full (E : Env V) (D : Disk) (i : Info V) (d : Nib → BNode V) (p : List Nib) (v : Option V) (c : Nib → Node V) :
    Prop where
  ok : InfoOK E D i p v c
  value : i.value = v
  kids : ∀ j, Rep E D (d j) (c j)

theorem Full.rep {i : Info V} {d : Nib → BNode V} {p : List Nib} {v : Option V} {c : Nib → Node V}
    (h : Full E D i d p v c) : Rep E D (.mk i d) (.mk p v c) :=
  ⟨p, v, c, rfl, Or.inr ⟨h.ok, h.kids⟩⟩

theorem Rep.isSome {b : BNode V} {a : Node V} (h : Rep E D b a) : b.isSome = a.isSome := by
  cases b with
  | nil => rw [show a = .nil from h]; rfl
  | mk i d => obtain ⟨p, v, c, rfl, -⟩ := h; rfl

theorem kids_isSome {d : Nib → BNode V} {c : Nib → Node V} (h : ∀ j, Rep E D (d j) (c j)) :
    (fun j => (d j).isSome) = fun j => (c j).isSome := funext fun j => (h j).isSome

theorem hasKids_eq {d : Nib → BNode V} {c : Nib → Node V} (h : ∀ j, Rep E D (d j) (c j)) :
    hasKids d = hasChildren c := by
  rw [hasKids, hasChildren, kids_isSome h]

theorem kidIds_eq {d : Nib → BNode V} {c : Nib → Node V} (h : ∀ j, Rep E D (d j) (c j)) :
    kidIds d = childIds c := by
  rw [kidIds, childIds, kids_isSome h]

/-- The value of a node without cached hash is present. -/
theorem InfoOK.value_of_nohash {i : Info V} {p : List Nib} {v : Option V} {c : Nib → Node V} (h : InfoOK E D i p v c)
    (hn : i.hash = none) : i.value = v ∧ (i.vhash = none ∨ i.vhash = v.map E.vh) ∧
      (i.vstream = none ∨ i.vstream = v.map E.enc) := by
  rcases h.value with ⟨h1, h2⟩ | ⟨-, h2, x, rfl, -⟩
  · exact ⟨h1, h2, h.stream⟩
  · rcases h.clean h2 with h3 | ⟨h3, -⟩
    · rw [isEmpty_iff] at h3; simp at h3
    · rw [hn] at h3; simp at h3

theorem headerB_eq {i : Info V} {d : Nib → BNode V} {p : List Nib} {v : Option V} {c : Nib → Node V}
    (hp : i.pre = p) (hv : i.value = v) (hk : ∀ j, Rep E D (d j) (c j)) : headerB i d = headerOf p v c := by
  rw [headerB, headerOf, hp, hv, kids_isSome hk]

/-- `HashValue` gives the hash of the tree and keeps the node standing for it. -/
theorem hashed_spec (b : BNode V) : ∀ {a : Node V}, Rep E D b a →
    Rep E D (hashed E b) a ∧ (a.isSome = true → hashOf E b = nh E a) ∧
    (∀ i d, b = .mk i d → ∃ i' d', hashed E b = .mk i' d' ∧ i'.hash = some (nh E a) ∧ i'.dirty = i.dirty ∧
      (∀ p v c, a = .mk p v c → i.hash = none → Full E D i' d' p v c)) := by
  induction b with
  | nil =>
    intro a h
    rw [show a = .nil from h]
    exact ⟨by simp [hashed, Rep], by simp [Node.isSome], by simp⟩
  | mk i d ih =>
    intro a h
    obtain ⟨p, v, c, rfl, h⟩ := h
    rw [hashOf, hashed]
    by_cases hh : i.hash.isSome = true
    · have hash : i.hash = some (nh E (.mk p v c)) := by
        rcases h with h | ⟨h, -⟩
        · exact h.hash
        · obtain ⟨x, hx⟩ := Option.isSome_iff_exists.1 hh
          rw [hx, h.hash x hx]
      simp only [hh, if_true, cached]
      refine ⟨⟨p, v, c, rfl, h⟩, fun _ => by rw [hash]; rfl, fun i1 d1 he => ?_⟩
      cases he
      exact ⟨i, d, rfl, hash, rfl, fun _ _ _ _ hn => by rw [hn] at hh; simp at hh⟩
    · have hn : i.hash = none := by simpa using hh
      have hk : InfoOK E D i p v c ∧ ∀ j, Rep E D (d j) (c j) := by
        rcases h with h | h
        · have := h.hash; rw [hn] at this; simp at this
        · exact h
      obtain ⟨hi, hk⟩ := hk
      obtain ⟨v1, v2, v3⟩ := hi.value_of_nohash hn
      obtain ⟨w1, -, w2, w3, -, w4, w5, w6, w7⟩ := valueHashed_some (E := E) v1 v2 v3
      have hval : makeHash E.H E.R (headerB i d) (hashedValue E i) ((kidIds d).map fun j => cached (hashed E (d j))) =
          nh E (.mk p v c) := by
        rw [nh, nodeHash, headerB_eq hi.pre v1 hk, hashedValue_eq v1 v2 v3, kidIds_eq hk]
        congr 1
        apply List.map_congr_left
        intro j hj
        exact (ih j (hk j)).2.1 ((mem_childIds c j).1 hj)
      have full : Full E D { valueHashed E i with hash := some (nh E (.mk p v c)) } (fun j => hashed E (d j)) p v c := by
        refine ⟨⟨?_, w3, ?_, ?_, ?_⟩, w1, fun j => (ih j (hk j)).1⟩
        · rw [← hi.pre]; exact w4
        · left; exact ⟨w1, w2⟩
        · intro h hh
          simp only [Option.some.injEq] at hh
          exact hh.symm
        · intro hd
          simp only [w6] at hd
          rcases hi.clean hd with h | ⟨-, h⟩
          · exact Or.inl h
          · exact Or.inr ⟨rfl, h⟩
      rw [hval, if_neg hh]
      refine ⟨full.rep, fun _ => rfl, fun i1 d1 he => ?_⟩
      cases he
      refine ⟨_, _, rfl, rfl, w6, ?_⟩
      intro p' v' c' he _
      cases he
      exact full

theorem hashOf_rep {b : BNode V} {a : Node V} (h : Rep E D b a) (hs : a.isSome = true) : hashOf E b = nh E a :=
  (hashed_spec b h).2.1 hs

/-- The value of a value-collapsed node can be loaded. -/
theorem expandValue_spec (hE : E.Lawful) {i : Info V} {d : Nib → BNode V} {p : List Nib} {v : Option V}
    {c : Nib → Node V} (hi : InfoOK E D i p v c) (hk : ∀ j, Rep E D (d j) (c j)) :
    ∃ i', expandValue E D i d = (.mk i' d, true) ∧ Full E D i' d p v c ∧ i'.dirty = i.dirty ∧ i'.hash = i.hash := by
  rw [expandValue]
  rcases hi.value with ⟨h1, h2⟩ | ⟨h1, h2, x, rfl, h4⟩
  · have : isValueCollapsed i = false := by
      rw [isValueCollapsed, h1]
      cases v with
      | some x => simp
      | none =>
        have : i.vhash = none := by rcases h2 with h2 | h2 <;> simpa using h2
        simp [this]
    rw [if_neg (by simp [this])]
    exact ⟨i, rfl, ⟨hi, h1, hk⟩, rfl, rfl⟩
  · have hc : isValueCollapsed i = true := by
      rw [isValueCollapsed, h1, h4]
      simp [hE.hv]
    rw [if_pos hc]
    have hst : Own E D p (some x) c := by
      rcases hi.clean h2 with h | ⟨-, h⟩
      · rw [isEmpty_iff] at h; simp at h
      · exact h
    obtain ⟨f, hf, hfx⟩ := hst.2.1 x rfl
    have hl : (load f i.vhash).bind E.dec = some x := by
      rw [load, h4, Option.getD_some, hfx, Option.bind_some, hE.hdec]
    simp only [hf, hl]
    exact ⟨{ i with value := some x }, rfl,
      ⟨⟨hi.pre, hi.stream, Or.inl ⟨rfl, Or.inr h4⟩, hi.hash, hi.clean⟩, rfl, hk⟩, rfl, rfl⟩

theorem rep_new {g : UInt64} {a : Node V} (hs : a.isSome = true) (hst : Stored E D a) :
    Rep E D (newNode (some (nh E a)) g) a := by
  cases a with
  | nil => simp [Node.isSome] at hs
  | mk p v c => exact ⟨p, v, c, rfl, Or.inl (hashOnly_new hst)⟩

theorem infoOK_notCollapsed (hE : E.Lawful) {i : Info V} {d : Nib → BNode V} {p : List Nib} {v : Option V}
    {c : Nib → Node V} (hi : InfoOK E D i p v c) (hk : ∀ j, Rep E D (d j) (c j)) (hw : WFRoot (.mk p v c)) :
    isCollapsed E i d = false := by
  rw [isCollapsed, hasKids_eq hk]
  rcases WFRoot.content hw with h | h | h
  · have hv : v = none := ((isEmpty_iff _ _ _).1 h).2.1
    cases hh : i.hash with
    | none => simp [isEmptyNodeHash_none]
    | some x =>
      rw [hi.hash x hh, isEmptyNodeHash_some hE, empty_node h]
      simp [emptyHash, nh]
  · rcases hi.value with ⟨h1, -⟩ | ⟨-, -, x, -, h4⟩
    · rw [h1]
      cases v with
      | none => simp at h
      | some x => simp
    · rw [h4, Option.getD_some, hE.hv]
      simp
  · simp [h]

/-- Every node that stands for a well-formed tree can be expanded. -/
theorem expand_spec (hE : E.Lawful) (g : UInt64) {b : BNode V} {p : List Nib} {v : Option V} {c : Nib → Node V}
    (h : Rep E D b (.mk p v c)) (hw : WFRoot (.mk p v c)) :
    ∃ i d, fullExpand E D g b = (.mk i d, true) ∧ Full E D i d p v c := by
  cases b with
  | nil => exact absurd (show Node.mk p v c = .nil from h) (by simp)
  | mk i d =>
    obtain ⟨p', v', c', he, h⟩ := h
    cases he
    rw [fullExpand]
    rcases h with h | ⟨hi, hk⟩
    · rw [if_pos (hashOnly_collapsed hE h), expandNode]
      obtain ⟨⟨f, hf, hfx⟩, -, hne, hkids⟩ := h.stored
      have hl : (load f i.hash).bind (deserB E { i with gen := g } d) =
          some (.mk { { i with gen := g } with pre := p, vhash := v.map E.vh }
            (fun j => if (c j).isSome then newNode (some (nh E (c j))) g else .nil)) := by
        have : load f i.hash = some (serA E p v c) := by rw [load, h.hash, Option.getD_some, hfx]
        rw [this, Option.bind_some]
        exact deserB_serA hE { i with gen := g } d h.kids h.vhash p v c
      simp only [hf, hl, afterDecode]
      have hk : ∀ j, Rep E D ((fun j => if (c j).isSome then newNode (some (nh E (c j))) g else BNode.nil) j) (c j) := by
        intro j
        by_cases hj : (c j).isSome = true
        · simp only [hj, if_true]
          exact rep_new hj (hkids j)
        · simp only [hj, if_false, Bool.false_eq_true]
          exact (isSome_false _).1 (by simpa using hj)
      have hi : InfoOK E D (⟨p, none, i.dirty, i.hash, v.map E.vh, i.vstream, g⟩ : Info V) p v c := by
        refine ⟨rfl, Or.inl h.vstream, ?_, ?_, ?_⟩
        · cases v with
          | none => exact Or.inl ⟨rfl, Or.inr rfl⟩
          | some x => exact Or.inr ⟨rfl, h.dirty, x, rfl, rfl⟩
        · intro h' hh
          have := h.hash
          rw [show i.hash = some h' from hh] at this
          simpa using this
        · intro _
          exact Or.inr ⟨h.hash, own h.stored⟩
      have hval : i.value = none := h.value
      have hnc := infoOK_notCollapsed hE hi hk hw
      have hne' := Stored.notEmpty h.stored
      have herr : inErrorStatus E (⟨p, none, i.dirty, i.hash, v.map E.vh, i.vstream, g⟩ : Info V)
          (fun j => if (c j).isSome then newNode (some (nh E (c j))) g else BNode.nil) = false := by
        rw [inErrorStatus, hasKids_eq hk]
        rcases WFRoot.content hw with h1 | h1 | h1
        · rw [hne'] at h1; simp at h1
        · cases v with
          | none => simp at h1
          | some x => simp [isValueCollapsed, hE.hv]
        · simp [h1]
      rw [hval, herr]
      simp only [Bool.false_eq_true, if_false]
      rw [if_neg (by rw [hnc]; simp)]
      obtain ⟨i', h1, h2, -⟩ := expandValue_spec hE hi hk
      exact ⟨i', _, h1, h2⟩
    · rw [if_neg (by rw [infoOK_notCollapsed hE hi hk hw]; simp)]
      obtain ⟨i', h1, h2, -⟩ := expandValue_spec hE hi hk
      exact ⟨i', _, h1, h2⟩

theorem Full.isEmpty (hE : E.Lawful) {i : Info V} {d : Nib → BNode V} {p : List Nib} {v : Option V} {c : Nib → Node V}
    (h : Full E D i d p v c) : isEmptyB E i d = Trie.isEmpty p v c := by
  rw [isEmptyB, Trie.isEmpty, h.ok.pre, hasKids_eq h.kids, h.value]
  by_cases he : Trie.isEmpty p v c = true
  · have hv : v = none := ((isEmpty_iff _ _ _).1 he).2.1
    have h1 : isEmptyNodeHash E i.hash = true := by
      cases hh : i.hash with
      | none => exact isEmptyNodeHash_none
      | some x =>
        rw [h.ok.hash x hh, isEmptyNodeHash_some hE, empty_node he]
        simp [emptyHash, nh]
    have h2 : i.vhash = none := by
      rcases h.ok.value with ⟨-, h2⟩ | ⟨-, -, x, hx, -⟩
      · rw [hv] at h2; rcases h2 with h2 | h2 <;> simpa using h2
      · rw [hv] at hx; simp at hx
    rw [h1, h2]
    simp
  · have he' : Trie.isEmpty p v c = false := by simpa using he
    rw [Trie.isEmpty] at he'
    rw [he']
    simp

/-- A node is changed: its caches are invalid and it is dirty, so nothing else is required of it. -/
theorem rep_dirty {i : Info V} {d : Nib → BNode V} {p : List Nib} {v : Option V} {c : Nib → Node V} (hp : i.pre = p)
    (hv : i.value = v) (h1 : i.vhash = none ∨ i.vhash = v.map E.vh) (h2 : i.vstream = none ∨ i.vstream = v.map E.enc)
    (hh : i.hash = none) (hd : i.dirty = true) (hk : ∀ j, Rep E D (d j) (c j)) : Full E D i d p v c :=
  ⟨⟨hp, h2, Or.inl ⟨hv, h1⟩, fun h he => by rw [hh] at he; simp at he, fun h => by rw [hd] at h; simp at h⟩, hv, hk⟩

theorem Full.vhash {i : Info V} {d : Nib → BNode V} {p : List Nib} {v : Option V} {c : Nib → Node V}
    (h : Full E D i d p v c) : i.vhash = none ∨ i.vhash = v.map E.vh := by
  rcases h.ok.value with ⟨-, h2⟩ | ⟨-, -, x, rfl, h4⟩
  · exact h2
  · exact Or.inr h4

/-- A new generation number changes nothing. -/
theorem Full.gen {i : Info V} {d : Nib → BNode V} {p : List Nib} {v : Option V} {c : Nib → Node V}
    (h : Full E D i d p v c) (g : UInt64) : Full E D { i with gen := g } d p v c :=
  ⟨⟨h.ok.pre, h.ok.stream, h.ok.value, h.ok.hash, h.ok.clean⟩, h.value, h.kids⟩

theorem Full.kid {i : Info V} {d : Nib → BNode V} {p : List Nib} {v : Option V} {c : Nib → Node V}
    (h : Full E D i d p v c) {k : Nib} {b : BNode V} (hb : Rep E D b (c k)) : Full E D i (setKid d k b) p v c := by
  refine ⟨h.ok, h.value, fun j => ?_⟩
  by_cases hj : j = k
  · subst hj; simpa [setKid] using hb
  · simpa [setKid, hj] using h.kids j

theorem rep_setKid {d : Nib → BNode V} {c : Nib → Node V} (h : ∀ j, Rep E D (d j) (c j)) {k : Nib} {b : BNode V}
    {a : Node V} (hb : Rep E D b a) : ∀ j, Rep E D (setKid d k b j) (setChild c k a j) := by
  intro j
  by_cases hj : j = k
  · subst hj; simpa [setKid, setChild] using hb
  · simpa [setKid, setChild, hj] using h j

theorem rep_noKids : ∀ j, Rep E D (noKids j) (noChild (V := V) j) := fun _ => rfl

theorem rep_leaf (g : UInt64) (p : List Nib) (x : V) : Rep E D (leafB g p x) (leaf p x) :=
  (rep_dirty (i := ⟨p, some x, true, none, none, none, g⟩) rfl rfl (Or.inl rfl) (Or.inl rfl) rfl rfl rep_noKids).rep

theorem getF_spec (hE : E.Lawful) (g : UInt64) : ∀ (f : Nat) {b : BNode V} {a : Node V} (q : List Nib), q.length < f →
    Rep E D b a → WFRoot a → (getF E D g f b q).2 = get a q ∧ Rep E D (getF E D g f b q).1 a := by
  intro f
  induction f with
  | zero => intro b a q h; omega
  | succ f ih =>
    intro b a q hq hr hw
    cases a with
    | nil => exact hw.elim
    | mk p v c =>
      obtain ⟨i, d, he, hf⟩ := expand_spec hE g hr hw
      rw [getF, he, get]
      simp only
      by_cases hq0 : q = []
      · simp only [hq0, if_true]
        exact ⟨hf.value, hf.rep⟩
      · simp only [hq0, if_false, hf.isEmpty hE]
        by_cases hem : Trie.isEmpty p v c = true
        · simp only [hem, if_true]
          exact ⟨by trivial, hf.rep⟩
        · simp only [hem, if_false, Bool.false_eq_true, hf.ok.pre]
          by_cases hm : p.drop (matchPrefix p q) = []
          · simp only [hm, if_true]
            cases hd : q.drop (matchPrefix p q) with
            | nil => exact ⟨hf.value, hf.rep⟩
            | cons k q' =>
              have hl : q'.length < f := by
                have := congrArg List.length hd
                simp at this
                omega
              simp only
              rw [(hf.kids k).isSome]
              by_cases hck : (c k).isSome = true
              · rw [hck]
                simp only [Bool.true_eq_false, if_false]
                obtain ⟨h1, h2⟩ := ih q' hl (hf.kids k) (WF.root (WFRoot.child hw k) hck)
                exact ⟨h1, (hf.kid h2).rep⟩
              · have hck' : (c k).isSome = false := by simpa using hck
                rw [hck']
                simp only [if_true]
                rw [(isSome_false _).1 hck']
                exact ⟨by trivial, hf.rep⟩
          · simp only [hm, if_false]
            exact ⟨by trivial, hf.rep⟩

theorem insertF_spec (hE : E.Lawful) (g : UInt64) (x : V) : ∀ (f : Nat) {b : BNode V} {a : Node V} (q : List Nib),
    q.length < f → Rep E D b a → WFRoot a →
    (insertF E D g x f b q).changed = (insert a q x).changed ∧ (insertF E D g x f b q).delta = (insert a q x).delta ∧
    Rep E D (insertF E D g x f b q).node (insert a q x).node := by
  intro f
  induction f with
  | zero => intro b a q h; omega
  | succ f ih =>
    intro b a q hq hr hw
    cases a with
    | nil => exact hw.elim
    | mk p v c =>
      obtain ⟨i, d, he, hf⟩ := expand_spec hE g hr hw
      have hpre := hf.ok.pre
      subst hpre
      have hput : Full E D (Info.put { i with gen := g } x) d i.pre (some x) c :=
        rep_dirty hf.ok.pre rfl (Or.inl rfl) (Or.inl rfl) rfl rfl hf.kids
      have htouch : ∀ {d' : Nib → BNode V} {c' : Nib → Node V}, (∀ j, Rep E D (d' j) (c' j)) →
          Full E D (Info.touch { i with gen := g }) d' i.pre v c' := fun hk =>
        rep_dirty hf.ok.pre hf.value hf.vhash hf.ok.stream rfl rfl hk
      rw [insertF, he, insert]
      simp only
      rw [insertAt]
      simp only
      by_cases hq0 : q = []
      · simp only [hq0, if_true, hf.value]
        exact ⟨by trivial, by trivial, hput.rep⟩
      · simp only [hq0, if_false, (hf.gen g).isEmpty hE]
        by_cases hem : Trie.isEmpty i.pre v c = true
        · simp only [hem, if_true, hf.value]
          refine ⟨by trivial, by trivial, ?_⟩
          exact (rep_dirty (p := q) rfl rfl (Or.inl rfl) (Or.inl rfl) rfl rfl hf.kids).rep
        · simp only [hem, if_false, Bool.false_eq_true]
          cases hm : i.pre.drop (matchPrefix i.pre q) with
          | nil =>
            cases hd : q.drop (matchPrefix i.pre q) with
            | nil =>
              simp only [hf.value]
              exact ⟨by trivial, by trivial, hput.rep⟩
            | cons k q' =>
              have hl : q'.length < f := by
                have := congrArg List.length hd
                simp at this
                omega
              simp only
              rw [(hf.kids k).isSome]
              by_cases hck : (c k).isSome = true
              · rw [hck]
                simp only [Bool.true_eq_false, if_false]
                obtain ⟨h1, h2, h3⟩ := ih q' hl (hf.kids k) (WF.root (WFRoot.child hw k) hck)
                have hch := insert_changed (c k) hck q' x
                rw [hch] at h1
                refine ⟨by rw [h1, hch], h2, ?_⟩
                rw [h1]
                simp only [if_true]
                exact (htouch (rep_setKid hf.kids h3)).rep
              · have hck' : (c k).isSome = false := by simpa using hck
                rw [hck']
                simp only [if_true]
                exact ⟨by trivial, by trivial, (htouch (rep_setKid hf.kids (rep_leaf g q' x))).rep⟩
          | cons j p' =>
            have hold : ∀ k, Rep E D (setKid noKids j (.mk { Info.touch { i with gen := g } with pre := p' } d) k)
                (setChild noChild j (.mk p' v c) k) := by
              apply rep_setKid rep_noKids
              exact (rep_dirty (i := { Info.touch { i with gen := g } with pre := p' }) rfl hf.value hf.vhash hf.ok.stream rfl rfl hf.kids).rep
            cases hd : q.drop (matchPrefix i.pre q) with
            | nil =>
              simp only
              exact ⟨by trivial, by trivial, (rep_dirty rfl rfl (Or.inl rfl) (Or.inl rfl) rfl rfl hold).rep⟩
            | cons k q' =>
              simp only
              exact ⟨by trivial, by trivial, (rep_dirty rfl rfl (Or.inl rfl) (Or.inl rfl) rfl rfl
                (rep_setKid hold (rep_leaf g q' x))).rep⟩

theorem mergeB_spec (hE : E.Lawful) (g : UInt64) {i : Info V} {d : Nib → BNode V} {p : List Nib} {v : Option V}
    {c : Nib → Node V} (h : Full E D i d p v c) (hw : ∀ j, WF (c j)) :
    ∃ n, mergeB E D g i d = some (n, (merge (.mk p v c)).2) ∧ Rep E D n (merge (.mk p v c)).1 := by
  have hpre := h.ok.pre
  subst hpre
  rw [mergeB, h.value, kidIds_eq h.kids]
  rcases merge_cases i.pre v c with ⟨hm, hn⟩ | ⟨k, p2, v2, c2, rfl, hk, hck, hm⟩
  · rw [hm]
    cases v with
    | some x => exact ⟨_, rfl, h.rep⟩
    | none =>
      simp only [Option.isSome_none, Bool.false_eq_true, if_false]
      refine ⟨.mk i d, ?_, h.rep⟩
      split
      · rename_i k hk
        exact absurd hk (hn rfl k)
      · rfl
  · rw [hm, hk]
    simp only [Option.isSome_none, Bool.false_eq_true, if_false]
    have hrk := h.kids k
    have hwk := hw k
    rw [hck] at hrk hwk
    obtain ⟨i2, d2, he, h2⟩ := expand_spec hE g hrk (Or.inr hwk)
    rw [he]
    simp only
    have hvh : i.vhash = none := by
      rcases h.vhash with h1 | h1 <;> simpa using h1
    have hkids : ∀ j, Rep E D (lift (setKid d k .nil) d2 j) (c2 j) := by
      intro j
      rw [lift]
      by_cases hj : (d2 j).isSome = true
      · simp only [hj, if_true]; exact h2.kids j
      · have hj' : (d2 j).isSome = false := by simpa using hj
        simp only [hj', Bool.false_eq_true, if_false]
        have hc2 : c2 j = .nil := by
          rw [← isSome_false, ← (h2.kids j).isSome, hj']
        rw [hc2]
        by_cases hjk : j = k
        · simp [setKid, hjk, Rep]
        · have hcj := (childIds_eq_singleton hk).2 j hjk
          have := h.kids j
          rw [hcj] at this
          simpa [setKid, hjk] using this
    have hval := h2.value
    cases v2 with
    | none =>
      simp only [hval]
      refine ⟨_, rfl, (rep_dirty (i := { i.touch with pre := i.pre ++ k :: i2.pre }) ?_ h.value (Or.inl hvh)
        (by simpa [Info.touch] using h.ok.stream) rfl rfl hkids).rep⟩
      simp [h2.ok.pre]
    | some x =>
      simp only [hval]
      refine ⟨_, rfl, (rep_dirty (i := Info.put { i.touch with pre := i.pre ++ k :: i2.pre } x) ?_ rfl (Or.inl rfl)
        (Or.inl rfl) rfl rfl hkids).rep⟩
      simp [Info.put, h2.ok.pre]

/-- What the two levels have to agree on for a deletion. -/
structure DelOK (E : Env V) (D : Disk) (r : DelResB V) (s : DelRes V) : Prop where
  changed : r.changed = s.changed
  remove : r.remove = s.remove
  old : r.old = s.old
  delta : r.delta = s.delta
  node : Rep E D r.node s.node
  full : s.remove = true → ∃ i d p v c, r.node = .mk i d ∧ s.node = .mk p v c ∧ Full E D i d p v c

theorem Full.unset {i : Info V} {d : Nib → BNode V} {p : List Nib} {v : Option V} {c : Nib → Node V}
    (h : Full E D i d p v c) : Full E D i.unset d p none c := by
  rw [Info.unset]
  split
  · exact rep_dirty h.ok.pre rfl (Or.inl rfl) (Or.inl rfl) rfl rfl h.kids
  · rename_i hv
    have : i.value = none := by simpa using hv
    rw [h.value] at this
    subst this
    exact h

theorem removeValueB_spec (hE : E.Lawful) (g : UInt64) {i : Info V} {d : Nib → BNode V} {p : List Nib} {v : Option V}
    {c : Nib → Node V} (h : Full E D i d p v c) (hw : ∀ j, WF (c j)) :
    ∃ r, removeValueB E D g i d = some r ∧ DelOK E D r (removeValue p v c) := by
  rw [removeValueB, removeValue, hasKids_eq h.kids]
  by_cases hc : hasChildren c = false
  · rw [if_pos hc, if_pos hc]
    refine ⟨_, rfl, ?_, rfl, h.value, ?_, h.unset.rep, fun _ => ⟨_, _, _, _, _, rfl, rfl, h.unset⟩⟩
    · simp only [h.value]
    · simp only [h.value]
  · rw [if_neg hc, if_neg hc]
    obtain ⟨n, hn, hr⟩ := mergeB_spec hE g h.unset hw
    rw [hn]
    refine ⟨_, rfl, ?_, rfl, h.value, ?_, hr, by simp⟩
    · simp only [h.value]
    · simp only [h.value]

theorem deleteF_spec (hE : E.Lawful) (g : UInt64) : ∀ (f : Nat) {b : BNode V} {a : Node V} (q : List Nib),
    q.length < f → Rep E D b a → WFRoot a → ∃ r, deleteF E D g f b q = some r ∧ DelOK E D r (delete a q) := by
  intro f
  induction f with
  | zero => intro b a q h; omega
  | succ f ih =>
    intro b a q hq hr hw
    cases a with
    | nil => exact hw.elim
    | mk p v c =>
      obtain ⟨i, d, he, hf⟩ := expand_spec hE g hr hw
      have hpre := hf.ok.pre
      subst hpre
      rw [deleteF, he, delete]
      simp only
      rw [deleteAt, hf.isEmpty hE]
      by_cases hem : Trie.isEmpty i.pre v c = true
      · simp only [hem, if_true]
        exact ⟨_, rfl, rfl, rfl, rfl, rfl, hf.rep, by simp⟩
      · simp only [hem, if_false, Bool.false_eq_true]
        have hwc : ∀ j, WF (c j) := WFRoot.child hw
        have hg := hf.gen g
        by_cases hq0 : q = []
        · simp only [hq0, if_true]
          exact removeValueB_spec hE g hg hwc
        · simp only [hq0, if_false]
          by_cases hm : i.pre.drop (matchPrefix i.pre q) = []
          · simp only [hm, if_true]
            cases hd : q.drop (matchPrefix i.pre q) with
            | nil => exact removeValueB_spec hE g hg hwc
            | cons k q' =>
              have hl : q'.length < f := by
                have := congrArg List.length hd
                simp at this
                omega
              simp only
              rw [(hf.kids k).isSome]
              by_cases hck : (c k).isSome = true
              · rw [hck]
                simp only [Bool.true_eq_false, if_false]
                obtain ⟨r, hr1, hr2⟩ := ih q' hl (hf.kids k) (WF.root (WFRoot.child hw k) hck)
                rw [hr1, Option.bind_some, deleteUp]
                have S := delete_spec (c k) hck (hwc k) q'
                simp only [hr2.changed, hr2.remove, hr2.old, hr2.delta]
                -- the node over the new children
                have hnode : Full E D (if (delete (c k) q').changed = true then Info.touch { i with gen := g }
                      else { i with gen := g })
                    (if ((delete (c k) q').changed && (delete (c k) q').remove) = true then setKid d k .nil
                      else setKid d k r.node) i.pre v
                    (if ((delete (c k) q').changed && (delete (c k) q').remove) = true then setChild c k .nil
                      else setChild c k (delete (c k) q').node) := by
                  have hkid : ∀ j, Rep E D ((if ((delete (c k) q').changed && (delete (c k) q').remove) = true
                      then setKid d k .nil else setKid d k r.node) j)
                      ((if ((delete (c k) q').changed && (delete (c k) q').remove) = true then setChild c k .nil
                        else setChild c k (delete (c k) q').node) j) := by
                    split
                    · exact rep_setKid hf.kids (show Rep E D .nil .nil from rfl)
                    · exact rep_setKid hf.kids hr2.node
                  by_cases hch : (delete (c k) q').changed = true
                  · rw [if_pos hch]
                    exact rep_dirty rfl hf.value hf.vhash hf.ok.stream rfl rfl hkid
                  · have hch' : (delete (c k) q').changed = false := by simpa using hch
                    rw [if_neg hch]
                    simp only [hch', Bool.false_and, Bool.false_eq_true, if_false]
                    have hsame : setChild c k (delete (c k) q').node = c := by
                      rw [S.same hch']
                      funext j
                      by_cases hj : j = k <;> simp [setChild, hj]
                    rw [hsame]
                    have := hr2.node
                    rw [S.same hch'] at this
                    exact hg.kid this
                have hwc' : ∀ j, WF ((if ((delete (c k) q').changed && (delete (c k) q').remove) = true
                    then setChild c k .nil else setChild c k (delete (c k) q').node) j) := by
                  by_cases hrem : (delete (c k) q').remove = true
                  · rw [if_pos (by rw [(S.removed hrem).1, hrem]; rfl)]
                    exact WF_setChild hwc k WF_nil
                  · have hrem' : (delete (c k) q').remove = false := by simpa using hrem
                    rw [if_neg (by simp [hrem'])]
                    exact WF_setChild hwc k (S.kept hrem')
                rw [hasKids_eq hnode.kids]
                by_cases hz : hasChildren (if ((delete (c k) q').changed && (delete (c k) q').remove) = true
                    then setChild c k .nil else setChild c k (delete (c k) q').node) = false ∧ v.isNone = true
                · rw [if_pos hz, if_pos (hf.value ▸ hz)]
                  exact ⟨_, rfl, rfl, rfl, rfl, rfl, hnode.rep, fun _ => ⟨_, _, _, _, _, rfl, rfl, hnode⟩⟩
                · rw [if_neg hz, if_neg (hf.value ▸ hz)]
                  obtain ⟨n, hn1, hn2⟩ := mergeB_spec hE g hnode hwc'
                  rw [hn1]
                  exact ⟨_, rfl, rfl, rfl, rfl, rfl, hn2, by simp⟩
              · have hck' : (c k).isSome = false := by simpa using hck
                rw [hck']
                simp only [if_true]
                exact ⟨_, rfl, rfl, rfl, rfl, rfl, hg.rep, by simp⟩
          · simp only [hm, if_false]
            exact ⟨_, rfl, rfl, rfl, rfl, rfl, hg.rep, by simp⟩

theorem collapseValue_spec (hE : E.Lawful) {i : Info V} {d : Nib → BNode V} {a : Node V} (h : Rep E D (.mk i d) a)
    (hd : i.dirty = false) : Rep E D (collapseValue E i d) a := by
  rw [collapseValue]
  by_cases hc : isValueCollapsed i = true
  · rw [if_pos hc]; exact h
  · rw [if_neg hc]
    obtain ⟨p, v, c, rfl, h⟩ := h
    refine ⟨p, v, c, rfl, ?_⟩
    rcases h with h | ⟨hi, hk⟩
    · left
      refine ⟨h.hash, rfl, ?_, rfl, h.kids, h.dirty, h.stored⟩
      simp [h.value]
    · right
      refine ⟨⟨hi.pre, Or.inl rfl, ?_, hi.hash, hi.clean⟩, hk⟩
      rcases hi.value with ⟨h1, h2⟩ | ⟨h1, h2, x, rfl, h4⟩
      · obtain ⟨-, -, -, -, hs, -⟩ := valueHashed_some h1 h2 hi.stream
        cases v with
        | none =>
          left
          refine ⟨rfl, Or.inl ?_⟩
          simp [h1]
        | some x =>
          right
          refine ⟨rfl, hd, x, rfl, ?_⟩
          simp only [h1, Option.isSome_some, if_true, (hs rfl).1, Option.map_some]
      · exfalso
        apply hc
        rw [isValueCollapsed, h1, h4]
        simp [hE.hv]

theorem rep_openNil : Rep E D (openTrie (V := V) none).root (.mk [] none noChild) := by
  refine ⟨[], none, noChild, rfl, Or.inr ⟨⟨rfl, ?_, Or.inl ⟨rfl, Or.inl rfl⟩, by simp, fun _ => Or.inl ?_⟩, fun _ => rfl⟩⟩
  · exact Or.inl rfl
  · exact (isEmpty_iff _ _ _).2 ⟨rfl, rfl, fun _ => rfl⟩

theorem get_step (hE : E.Lawful) {t : BTrie V} {a : Node V} (h : Rep E D t.root a) (hw : WFRoot a) (k : Bytes) :
    (t.get E D k).2 = get a (keyToPrefix k) ∧ Rep E D (t.get E D k).1.root a := by
  obtain ⟨h1, h2⟩ := getF_spec hE t.gen ((keyToPrefix k).length + 1) (keyToPrefix k) (by omega) h hw
  exact ⟨h1, h2⟩

theorem put_step (hE : E.Lawful) {t : BTrie V} {a : Node V} (h : Rep E D t.root a) (hw : WFRoot a) (k : Bytes) (x : V) :
    (t.put E D k x).2 = (insert a (keyToPrefix k) x).changed ∧
    (t.put E D k x).1.count = t.count + (insert a (keyToPrefix k) x).delta ∧
    Rep E D (t.put E D k x).1.root (insert a (keyToPrefix k) x).node := by
  obtain ⟨h1, h2, h3⟩ := insertF_spec hE t.gen x ((keyToPrefix k).length + 1) (keyToPrefix k) (by omega) h hw
  refine ⟨h1, ?_, h3⟩
  rw [← h2]
  rfl

theorem clearPrefixB_spec {i : Info V} {d : Nib → BNode V} {p : List Nib} {v : Option V} {c : Nib → Node V}
    (h : Full E D i d p v c) : Rep E D (clearPrefixB (.mk i d)) (clearPrefix (.mk p v c)) := by
  rw [clearPrefixB, clearPrefix, h.ok.pre]
  by_cases hp : p = []
  · subst hp
    rw [if_pos rfl]
    exact h.rep
  · rw [if_neg hp]
    exact (rep_dirty (i := { i.touch with pre := [] }) rfl h.value h.vhash h.ok.stream rfl rfl h.kids).rep

theorem del_step (hE : E.Lawful) {t : BTrie V} {a : Node V} (h : Rep E D t.root a) (hw : WFRoot a) (k : Bytes) :
    ∃ t', t.del E D k = some (t', (delete a (keyToPrefix k)).changed, (delete a (keyToPrefix k)).old) ∧
      t'.count = t.count + (delete a (keyToPrefix k)).delta ∧ t'.gen = t.gen ∧
      Rep E D t'.root (afterDelete a (keyToPrefix k)) := by
  obtain ⟨r, hr, hok⟩ := deleteF_spec hE t.gen ((keyToPrefix k).length + 1) (keyToPrefix k) (by omega) h hw
  refine ⟨{ t with root := if r.remove then clearPrefixB r.node else r.node, count := t.count + r.delta }, ?_, ?_, rfl, ?_⟩
  · rw [BTrie.del, hr, Option.map_some, hok.changed, hok.old]
  · simp only [hok.delta]
  · simp only [afterDelete, hok.remove]
    by_cases hrem : (delete a (keyToPrefix k)).remove = true
    · rw [if_pos hrem, if_pos hrem]
      obtain ⟨i, d, p, v, c, e1, e2, hf⟩ := hok.full hrem
      rw [e1, e2]
      exact clearPrefixB_spec hf
    · rw [if_neg hrem, if_neg hrem]
      exact hok.node

theorem hash_step {t : BTrie V} {a : Node V} (h : Rep E D t.root a) (hw : WFRoot a) :
    (t.hash E).2 = nh E a ∧ Rep E D (t.hash E).1.root a :=
  ⟨hashOf_rep h hw.isSome, (hashed_spec _ h).1⟩


/-! ### Saving -/

variable {G : Node V → Prop}

/-- No node or value of `G` is lost. -/
def Keeps (E : Env V) (G : Node V → Prop) (D D' : Disk) : Prop := ∀ p v c, G (.mk p v c) → Own E D p v c → Own E D' p v c

theorem Keeps.refl (D : Disk) : Keeps E G D D := fun _ _ _ _ h => h

theorem Keeps.trans {D1 D2 D3 : Disk} (h1 : Keeps E G D1 D2) (h2 : Keeps E G D2 D3) : Keeps E G D1 D3 :=
  fun p v c hg h => h2 p v c hg (h1 p v c hg h)

theorem Keeps.stored (hG : Ghost E G) {D D' : Disk} (h : Keeps E G D D') : ∀ {n : Node V}, (n.isSome = true → G n) → Stored E D n → Stored E D' n := by
  intro n
  induction n with
  | nil => intro _ _; trivial
  | mk p v c ih =>
    intro hg hs
    have o := h p v c (hg rfl) (own hs)
    exact ⟨o.1, o.2.1, o.2.2, fun j => ih j (fun hj => hG.child (hg rfl) j hj) (hs.2.2.2 j)⟩

theorem keeps_of {D D' : Disk}
    (hn : ∀ p v c, G (.mk p v c) → ∀ f, D.nodes = some f → f (nh E (.mk p v c)) = some (serA E p v c) →
      ∃ f', D'.nodes = some f' ∧ f' (nh E (.mk p v c)) = some (serA E p v c))
    (hv : ∀ p x c, G (.mk p (some x) c) → ∀ f, D.values = some f → f (E.vh x) = some (E.enc x) →
      ∃ f', D'.values = some f' ∧ f' (E.vh x) = some (E.enc x)) : Keeps E G D D' := by
  intro p v c hg ⟨⟨f, hf, hfx⟩, h2, h3⟩
  refine ⟨hn p v c hg f hf hfx, ?_, h3⟩
  rintro x rfl
  obtain ⟨f, hf, hfx⟩ := h2 x rfl
  exact hv p x c hg f hf hfx

theorem rep_keeps (hG : Ghost E G) {D D' : Disk} (h : Keeps E G D D') (b : BNode V) : ∀ {a : Node V},
    (a.isSome = true → G a) → Rep E D b a → Rep E D' b a := by
  induction b with
  | nil => intro a _ hr; exact hr
  | mk i d ih =>
    intro a hg ⟨p, v, c, ha, hr⟩
    subst ha
    have hg' := hg rfl
    refine ⟨p, v, c, rfl, ?_⟩
    rcases hr with hr | ⟨hi, hk⟩
    · exact Or.inl ⟨hr.hash, hr.value, hr.vhash, hr.vstream, hr.kids, hr.dirty, h.stored hG hg hr.stored⟩
    · refine Or.inr ⟨⟨hi.pre, hi.stream, hi.value, hi.hash, fun hd => ?_⟩, fun j => ih j (hG.child hg' j) (hk j)⟩
      rcases hi.clean hd with h1 | ⟨h1, h2⟩
      · exact Or.inl h1
      · exact Or.inr ⟨h1, h _ _ _ hg' h2⟩

/-- Over a storage that has the whole tree, nothing is missing. -/
theorem rep_strong (b : BNode V) : ∀ {a : Node V}, Rep E D b a → (∀ p v c, a = .mk p v c → isEmpty p v c = false → Stored E D a) →
    Store.Rep E D b a := by
  induction b with
  | nil => intro a h _; exact h
  | mk i d ih =>
    intro a ⟨p, v, c, ha, h⟩ hs
    subst ha
    refine ⟨p, v, c, rfl, ?_⟩
    rcases h with h | ⟨hi, hk⟩
    · exact Or.inl h
    · refine Or.inr ⟨⟨hi.pre, hi.stream, hi.value, hi.hash, fun hd => ?_⟩, fun j => ih j (hk j) ?_⟩
      · cases he : isEmpty p v c with
        | true => exact Or.inl rfl
        | false =>
          rcases hi.clean hd with h1 | ⟨h1, -⟩
          · rw [he] at h1; cases h1
          · exact Or.inr ⟨h1, hs p v c rfl he⟩
      · intro p' v' c' hj hne
        cases he : isEmpty p v c with
        | true =>
          obtain ⟨-, -, hc⟩ := (isEmpty_iff _ _ _).1 he
          rw [hc j] at hj; cases hj
        | false => exact (hs p v c rfl he).2.2.2 j

theorem rep_weak (b : BNode V) : ∀ {a : Node V}, Store.Rep E D b a → Rep E D b a := by
  induction b with
  | nil => intro a h; exact h
  | mk i d ih =>
    intro a ⟨p, v, c, ha, h⟩
    subst ha
    refine ⟨p, v, c, rfl, ?_⟩
    rcases h with h | ⟨hi, hk⟩
    · exact Or.inl h
    · refine Or.inr ⟨⟨hi.pre, hi.stream, hi.value, hi.hash, fun hd => ?_⟩, fun j => ih j (hk j)⟩
      rcases hi.clean hd with h1 | ⟨h1, h2⟩
      · exact Or.inl h1
      · exact Or.inr ⟨h1, own h2⟩

/-- What a save leaves, whatever fails; if nothing fails, all of the tree is stored. -/
structure SaveW (E : Env V) (G : Node V → Prop) (F : Faults) (D : Disk) (r : BNode V × Disk × Bool) (a : Node V) : Prop where
  disk : r.2.1.ok
  keeps : Keeps E G D r.2.1
  rep : Rep E r.2.1 r.1 a
  done : Harmless E G F → r.2.2 = true
  stored : Harmless E G F → ∀ p v c, a = .mk p v c → isEmpty p v c = false → Stored E r.2.1 a

theorem dirty_full {i : Info V} {d : Nib → BNode V} {p : List Nib} {v : Option V} {c : Nib → Node V}
    (h : Rep E D (.mk i d) (.mk p v c)) (hd : i.dirty = true) : Full E D i d p v c := by
  obtain ⟨p', v', c', he, h⟩ := h
  cases he
  rcases h with h | ⟨hi, hk⟩
  · have := h.dirty; rw [hd] at this; simp at this
  · refine ⟨hi, ?_, hk⟩
    rcases hi.value with ⟨h1, -⟩ | ⟨-, h2, -⟩
    · exact h1
    · rw [hd] at h2; simp at h2

theorem serB_eq {i : Info V} {d : Nib → BNode V} {p : List Nib} {v : Option V} {c : Nib → Node V}
    (h : Full E D i d p v c) : serB E i d = serA E p v c := by
  obtain ⟨-, -, -, -, hs, -⟩ := valueHashed_some h.value h.vhash h.ok.stream
  rw [serB, serA, headerB_eq h.ok.pre h.value h.kids, kidIds_eq h.kids, h.value]
  congr 1
  · congr 1
    have : ∀ l : List Nib, (∀ j ∈ l, (c j).isSome = true) →
        l.flatMap (fun j => hashOf E (d j)) = l.flatMap fun j => nh E (c j) := by
      intro l
      induction l with
      | nil => intro _; rfl
      | cons a l ih =>
        intro hl
        rw [List.flatMap_cons, List.flatMap_cons, ih (fun j hj => hl j (List.mem_cons_of_mem _ hj)),
          hashOf_rep (h.kids a) (hl a List.mem_cons_self)]
    exact this _ fun j hj => (mem_childIds c j).1 hj
  · cases v with
    | none => simp
    | some x => simp [(hs rfl).1]

theorem Full.valueHashed {i : Info V} {d : Nib → BNode V} {p : List Nib} {v : Option V} {c : Nib → Node V}
    (h : Full E D i d p v c) : Full E D (Store.valueHashed E i) d p v c := by
  obtain ⟨w1, -, w2, w3, -, w4, w5, w6, -⟩ := valueHashed_some h.value h.vhash h.ok.stream
  refine ⟨⟨by rw [w4, h.ok.pre], w3, Or.inl ⟨w1, w2⟩, by rw [w5]; exact h.ok.hash, by rw [w6, w5]; exact h.ok.clean⟩,
    w1, h.kids⟩

theorem hashed_full {i : Info V} {d : Nib → BNode V} {p : List Nib} {v : Option V} {c : Nib → Node V}
    (h : Full E D i d p v c) : ∃ i' d', hashed E (.mk i d) = .mk i' d' ∧ i'.hash = some (nh E (.mk p v c)) ∧
      Full E D i' d' p v c := by
  obtain ⟨-, -, h3⟩ := hashed_spec _ h.rep
  obtain ⟨i', d', he, hh, -, hf⟩ := h3 i d rfl
  refine ⟨i', d', he, hh, ?_⟩
  cases hn : i.hash with
  | none => exact hf p v c rfl hn
  | some x =>
    rw [hashed, hn] at he
    simp at he
    rw [← he.1, ← he.2]
    exact h

theorem saveValue_weak (hE : E.Lawful) (hG : Ghost E G) (F : Faults) {D : Disk} (hD : D.ok)
    {i : Info V} {d : Nib → BNode V} {p : List Nib} {v : Option V} {c : Nib → Node V} (h : Full E D i d p v c)
    (hvh : v.isSome = true → i.vhash = v.map E.vh ∧ i.vstream = v.map E.enc) (hg : G (.mk p v c)) :
    (saveValue F D i).1.ok ∧ Keeps E G D (saveValue F D i).1 ∧ (saveValue F D i).1.nodes = D.nodes ∧
    ((saveValue F D i).2 = true → ∀ x, v = some x → ∃ f, (saveValue F D i).1.values = some f ∧ f (E.vh x) = some (E.enc x)) ∧
    (Harmless E G F → (saveValue F D i).2 = true) := by
  rw [saveValue, h.value]
  cases v with
  | none =>
    simp only [Option.isSome_none, Bool.false_eq_true, false_and, if_false]
    exact ⟨hD, Keeps.refl D, by trivial, by simp, by simp⟩
  | some x =>
    obtain ⟨h1, h2⟩ := hvh rfl
    rw [h1, h2]
    simp only [Option.map_some, Option.getD_some, Option.isSome_some, hE.hv, Nat.le_refl, and_self, if_true, saveTo]
    obtain ⟨fv, hfv⟩ := Option.isSome_iff_exists.1 hD.2
    simp only [hfv]
    cases hb : F.value (E.vh x) with
    | true =>
      simp only [if_true]
      refine ⟨⟨hD.1, rfl⟩, ?_, by trivial, by simp, ?_⟩
      · apply keeps_of
        · intro p v c _ f hf hfx
          exact ⟨f, hf, hfx⟩
        · intro p' y c' hg' f hf hfx
          rw [hfv] at hf
          cases hf
          exact ⟨_, rfl, hfx⟩
      · intro hF
        rw [hF.2 p x c hg] at hb
        cases hb
    | false =>
      simp only [Bool.false_eq_true, if_false]
      refine ⟨⟨hD.1, rfl⟩, ?_, by trivial, ?_, by simp⟩
      · apply keeps_of
        · intro p v c _ f hf hfx
          exact ⟨f, hf, hfx⟩
        · intro p' y c' hg' f hf hfx
          rw [hfv] at hf
          cases hf
          refine ⟨_, rfl, ?_⟩
          split
          · rename_i he
            rw [hG.val hg' hg he]
          · exact hfx
      · intro _ y hy
        cases hy
        exact ⟨_, rfl, by simp⟩

theorem saveOne_weak (hE : E.Lawful) (hG : Ghost E G) (F : Faults) {D : Disk} (hD : D.ok)
    {i : Info V} {d : Nib → BNode V} {p : List Nib} {v : Option V} {c : Nib → Node V} (h : Full E D i d p v c)
    (hg : G (.mk p v c)) (hst : Harmless E G F → ∀ j, Stored E D (c j)) : SaveW E G F D (saveOne E F D i d) (.mk p v c) := by
  obtain ⟨-, -, -, -, hs, -⟩ := valueHashed_some h.value h.vhash h.ok.stream
  have h1 := h.valueHashed
  obtain ⟨s2, s3, s4, s5, s1⟩ := saveValue_weak hE hG F hD h1 hs hg
  obtain ⟨i2, d2, he, hh, h2⟩ := hashed_full h1
  obtain ⟨fn, hfn⟩ := Option.isSome_iff_exists.1 hD.1
  have hgs : (Node.mk p v c).isSome = true → G (.mk p v c) := fun _ => hg
  rw [saveOne]
  simp only
  cases hv : (saveValue F D (valueHashed E i)).2 with
  | false =>
    rw [if_pos rfl]
    refine ⟨s2, s3, rep_keeps hG s3 _ hgs h1.rep, fun hF => ?_, fun hF => ?_⟩
    · rw [s1 hF] at hv; cases hv
    · rw [s1 hF] at hv; cases hv
  | true =>
    rw [if_neg (by simp), he, serB_eq h1]
    simp only [hh, Option.getD_some, saveTo, s4, hfn]
    have hkid : ∀ j, Rep E D (hashed E (d2 j)) (c j) := fun j => (hashed_spec _ (h2.kids j)).1
    cases hb : F.node (nh E (.mk p v c)) with
    | true =>
      simp only [if_true]
      have hk : Keeps E G D (Disk.mk (some fn) (saveValue F D (valueHashed E i)).1.values) := by
        have : Disk.mk (some fn) (saveValue F D (valueHashed E i)).1.values = (saveValue F D (valueHashed E i)).1 := by
          rw [← hfn, ← s4]
        rw [this]; exact s3
      refine ⟨⟨rfl, s2.2⟩, hk, ?_, fun hF => ?_, fun hF => ?_⟩
      · exact rep_keeps hG hk (.mk i2 fun j => hashed E (d2 j)) hgs
          ⟨p, v, c, rfl, Or.inr ⟨⟨h2.ok.pre, h2.ok.stream, Or.inl ⟨h2.value, h2.vhash⟩, h2.ok.hash, h2.ok.clean⟩, hkid⟩⟩
      · rw [hF.1 p v c hg] at hb; cases hb
      · rw [hF.1 p v c hg] at hb; cases hb
    | false =>
      simp only [Bool.false_eq_true, if_false, Bool.true_eq_false]
      have hext : Keeps E G (saveValue F D (valueHashed E i)).1
          (Disk.mk (some fun k => if k = nh E (.mk p v c) then some (serA E p v c) else fn k)
            (saveValue F D (valueHashed E i)).1.values) := by
        apply keeps_of
        · intro p' v' c' hg' f hf hfx
          rw [s4, hfn] at hf
          cases hf
          refine ⟨_, rfl, ?_⟩
          split
          · rename_i heq
            have := hG.inj hg' hg heq
            cases this
            rfl
          · exact hfx
        · intro p' x c' _ f hf hfx
          exact ⟨f, hf, hfx⟩
      have hext' := s3.trans hext
      have hown : isEmpty p v c = false → Own E (Disk.mk (some fun k => if k = nh E (.mk p v c) then some (serA E p v c) else fn k)
            (saveValue F D (valueHashed E i)).1.values) p v c := by
        intro hne
        refine ⟨⟨_, rfl, by simp⟩, s5 hv, ?_⟩
        intro heq
        have := hG.inj hg hG.empty heq
        rw [Node.mk.injEq] at this
        obtain ⟨rfl, rfl, rfl⟩ := this
        have h0 : isEmpty [] none (noChild (V := V)) = true := (isEmpty_iff _ _ _).2 ⟨rfl, rfl, fun _ => rfl⟩
        rw [h0] at hne
        simp at hne
      refine ⟨⟨rfl, s2.2⟩, hext', ?_, fun _ => rfl, ?_⟩
      · refine ⟨p, v, c, rfl, Or.inr ⟨⟨h2.ok.pre, h2.ok.stream, Or.inl ⟨h2.value, h2.vhash⟩, ?_, ?_⟩, ?_⟩⟩
        · intro x hx
          exact h2.ok.hash x (hh.trans hx)
        · intro _
          by_cases hem : isEmpty p v c = true
          · exact Or.inl hem
          · exact Or.inr ⟨rfl, hown (by simpa using hem)⟩
        · intro j
          exact rep_keeps hG hext' _ (fun hj => hG.child hg j hj) (hkid j)
      · intro hF p' v' c' heq hne
        cases heq
        have o := hown hne
        exact ⟨o.1, o.2.1, o.2.2, fun j => hext'.stored hG (fun hj => hG.child hg j hj) (hst hF j)⟩

theorem saveHere_weak (hE : E.Lawful) (hG : Ghost E G) (F : Faults) (L : Limits) (g : UInt64)
    {D : Disk} (hD : D.ok) {i : Info V} {d : Nib → BNode V} {p : List Nib} {v : Option V} {c : Nib → Node V}
    (h : Rep E D (.mk i d) (.mk p v c)) (hg : G (.mk p v c)) (hst : Harmless E G F → ∀ j, Stored E D (c j)) (hy : ¬ (g - i.gen > L.gen)) :
    SaveW E G F D (saveHere E F L g D i d) (.mk p v c) := by
  rw [saveHere]
  cases hd : i.dirty with
  | true =>
    simp only [if_true]
    exact saveOne_weak hE hG F hD (dirty_full h hd) hg hst
  | false =>
    simp only [Bool.false_eq_true, if_false]
    have key : ∀ b, Rep E D b (.mk p v c) → SaveW E G F D (b, D, true) (.mk p v c) := by
      intro b hb
      refine ⟨hD, Keeps.refl D, hb, fun _ => rfl, ?_⟩
      intro hF p' v' c' he hne
      cases he
      obtain ⟨p', v', c', he, h⟩ := h
      cases he
      rcases h with h | ⟨hi, -⟩
      · exact h.stored
      · rcases hi.clean hd with h | ⟨-, o⟩
        · rw [h] at hne; cases hne
        · exact ⟨o.1, o.2.1, o.2.2, hst hF⟩
    rw [if_neg (by simp [hy])]
    split
    · exact key _ (collapseValue_spec hE h hd)
    · exact key _ h

/-- Every node of a tree in memory. -/
def Each (P : Info V → Prop) : BNode V → Prop
  | .nil => True
  | .mk i c => P i ∧ ∀ j, Each P (c j)

/-- The children are saved one after the other. -/
theorem saveKids_weak (hG : Ghost E G) {F : Faults} (L : Limits) (g : UInt64) {D : Disk} {d : Nib → BNode V}
    {c : Nib → Node V} (hk : ∀ j, Rep E D (d j) (c j)) (hg : ∀ j, (c j).isSome = true → G (c j))
    (ih : ∀ j, (c j).isSome = true → ∀ D', D'.ok → Rep E D' (d j) (c j) →
      SaveW E G F D' (save E F L g (d j) D') (c j) ∧ (Harmless E G F → Stored E (save E F L g (d j) D').2.1 (c j))) :
    ∀ (l : List Nib) (s : (Nib → BNode V) × Disk) (done : Nib → Prop), s.2.ok → Keeps E G D s.2 →
      (∀ j, Rep E s.2 (s.1 j) (c j)) → (Harmless E G F → ∀ j, done j → Stored E s.2 (c j)) →
      let r := l.foldl (fun (s : (Nib → BNode V) × Disk) j =>
        if (d j).isSome then
          let x := save E F L g (d j) s.2
          (setKid s.1 j x.1, x.2.1)
        else s) s
      r.2.ok ∧ Keeps E G D r.2 ∧ (∀ j, Rep E r.2 (r.1 j) (c j)) ∧ (Harmless E G F → ∀ j, (done j ∨ j ∈ l) → Stored E r.2 (c j)) := by
  intro l
  induction l with
  | nil =>
    intro s done h1 h2 h3 h4
    exact ⟨h1, h2, h3, fun hF j hj => h4 hF j (by simpa using hj)⟩
  | cons k l ihl =>
    intro s done h1 h2 h3 h4
    rw [List.foldl_cons]
    have hstep : ∃ s', (if (d k).isSome then
          let x := save E F L g (d k) s.2
          (setKid s.1 k x.1, x.2.1)
        else s) = s' ∧ s'.2.ok ∧ Keeps E G D s'.2 ∧ (∀ j, Rep E s'.2 (s'.1 j) (c j)) ∧
        (Harmless E G F → ∀ j, (done j ∨ j = k) → Stored E s'.2 (c j)) := by
      refine ⟨_, rfl, ?_⟩
      rw [(hk k).isSome]
      by_cases hck : (c k).isSome = true
      · rw [if_pos hck]
        simp only
        obtain ⟨S, hst⟩ := ih k hck s.2 h1 (rep_keeps hG h2 _ (hg k) (hk k))
        refine ⟨S.disk, h2.trans S.keeps, ?_, ?_⟩
        · intro j
          by_cases hj : j = k
          · subst hj; simpa [setKid] using S.rep
          · simpa [setKid, hj] using rep_keeps hG S.keeps _ (hg j) (h3 j)
        · rintro hF j (hj | rfl)
          · exact S.keeps.stored hG (hg j) (h4 hF j hj)
          · exact hst hF
      · rw [if_neg hck]
        refine ⟨h1, h2, h3, ?_⟩
        rintro hF j (hj | rfl)
        · exact h4 hF j hj
        · exact stored_absent hck
    obtain ⟨s', he, a1, a2, a3, a4⟩ := hstep
    rw [he]
    obtain ⟨b1, b2, b3, b4⟩ := ihl s' (fun j => done j ∨ j = k) a1 a2 a3 a4
    refine ⟨b1, b2, b3, ?_⟩
    intro hF j hj
    apply b4 hF j
    rcases hj with hj | hj
    · exact Or.inl (Or.inl hj)
    · rcases List.mem_cons.1 hj with hj | hj
      · exact Or.inl (Or.inr hj)
      · exact Or.inr hj

/-- Saving a tree whose nodes are too young to be reduced to their hashes, whatever `Save` calls fail. -/
theorem save_weak (hE : E.Lawful) (hG : Ghost E G) (F : Faults) (L : Limits) (g : UInt64)
    (b : BNode V) : ∀ {a : Node V} {D : Disk}, D.ok → Rep E D b a → WFRoot a → G a → Each (fun i => ¬ (g - i.gen > L.gen)) b →
      SaveW E G F D (save E F L g b D) a := by
  induction b with
  | nil =>
    intro a D _ hr hw
    rw [show a = .nil from hr] at hw
    exact hw.elim
  | mk i d ih =>
    intro a D hD hr hw hg hy
    have hr0 := hr
    obtain ⟨p, v, c, rfl, hr⟩ := hr
    rw [save]
    rcases hr with hr | ⟨hi, hk⟩
    · simp only [fold_nil F L g hr.kids]
      exact saveHere_weak hE hG F L g hD hr0 hg (fun _ j => hr.stored.2.2.2 j) hy.1
    · have hw' : ∀ j, WF (c j) := WFRoot.child hw
      obtain ⟨b1, b2, b3, b4⟩ := saveKids_weak hG (F := F) L g hk (fun j hj => hG.child hg j hj) (fun j hj D' hD' hr' => by
        have S := ih j hD' hr' (WF.root (hw' j) hj) (hG.child hg j hj) (hy.2 j)
        refine ⟨S, fun hF => ?_⟩
        have hwj := hw' j
        cases hcj : c j with
        | nil => trivial
        | mk p' v' c' =>
          rw [hcj] at hwj
          rw [← hcj]
          exact S.stored hF p' v' c' hcj (not_empty_of_WF hwj)) nibbles (d, D) (fun _ => False) hD (Keeps.refl D) hk (by simp)
      have hrep : Rep E (nibbles.foldl (fun (s : (Nib → BNode V) × Disk) j =>
          if (d j).isSome then
            let x := save E F L g (d j) s.2
            (setKid s.1 j x.1, x.2.1)
          else s) (d, D)).2 (.mk i (nibbles.foldl (fun (s : (Nib → BNode V) × Disk) j =>
          if (d j).isSome then
            let x := save E F L g (d j) s.2
            (setKid s.1 j x.1, x.2.1)
          else s) (d, D)).1) (.mk p v c) := by
        refine ⟨p, v, c, rfl, Or.inr ⟨⟨hi.pre, hi.stream, hi.value, hi.hash, fun hd => ?_⟩, b3⟩⟩
        rcases hi.clean hd with h1 | ⟨h1, h2⟩
        · exact Or.inl h1
        · exact Or.inr ⟨h1, b2 _ _ _ hg h2⟩
      have S := saveHere_weak hE hG F L g b1 hrep hg (fun hF j => b4 hF j (Or.inr (mem_nibbles j))) hy.1
      exact ⟨S.disk, b2.trans S.keeps, S.rep, S.done, S.stored⟩


/-! ### The generations of the nodes -/

/-- The generations of all nodes in memory. -/
abbrev Gens (Q : UInt64 → Prop) (b : BNode V) : Prop := Each (fun i => Q i.gen) b

variable {Q : UInt64 → Prop}

theorem each_imp {P P' : Info V → Prop} (h : ∀ i, P i → P' i) : ∀ b : BNode V, Each P b → Each P' b := by
  intro b
  induction b with
  | nil => intro _; trivial
  | mk i c ih => exact fun hb => ⟨h i hb.1, fun j => ih j (hb.2 j)⟩

theorem gens_new {g : UInt64} (hg : Q g) (h : Option Bytes) : Gens Q (newNode (V := V) h g) := ⟨hg, fun _ => trivial⟩

theorem each_setKid {P : Info V → Prop} {c : Nib → BNode V} {k : Nib} {b : BNode V} (h : ∀ j, Each P (c j)) (hb : Each P b) (j : Nib) :
    Each P (setKid c k b j) := by
  rw [setKid]
  split
  · exact hb
  · exact h j

theorem each_noKids {P : Info V → Prop} (j : Nib) : Each P (noKids (V := V) j) := trivial

theorem gens_deserB {i : Info V} {c : Nib → BNode V} {bs : Bytes} {n : BNode V}
    (h0 : Gens Q (.mk i c)) (h : deserB E i c bs = some n) : Gens Q n := by
  rw [deserB, Option.bind_eq_some_iff] at h
  obtain ⟨_, -, h⟩ := h
  rw [Option.bind_eq_some_iff] at h
  obtain ⟨k, h1, h⟩ := h
  rw [Option.map_eq_some_iff] at h
  obtain ⟨w, h2, rfl⟩ := h
  refine ⟨h0.1, ?_⟩
  split at h1
  · rw [Option.map_eq_some_iff] at h1
    obtain ⟨r, -, rfl⟩ := h1
    intro j
    simp only [kidsOf]
    split
    · exact gens_new h0.1 _
    · trivial
  · injection h1 with h1
    subst h1
    exact h0.2

theorem gens_expandValue {i : Info V} {c : Nib → BNode V} (h : Gens Q (.mk i c)) : Gens Q (expandValue E D i c).1 := by
  rw [expandValue]
  split
  · split
    · exact h
    · split
      · exact h
      · exact ⟨h.1, h.2⟩
  · exact h

theorem gens_fullExpand {g : UInt64} (hg : Q g) {n : BNode V} (h : Gens Q n) : Gens Q (fullExpand E D g n).1 := by
  cases n with
  | nil => exact h
  | mk i c =>
    rw [fullExpand]
    split
    · have h' : Gens Q (.mk { i with gen := g } c) := ⟨hg, h.2⟩
      rw [expandNode]
      split
      · exact h
      · split
        · exact h'
        · next n hn =>
          rw [Option.bind_eq_some_iff] at hn
          obtain ⟨bs, -, hn⟩ := hn
          have h1 := gens_deserB h' hn
          cases n with
          | nil => trivial
          | mk i' c' =>
            simp only [afterDecode]
            split
            · have h2 : Gens Q (.mk { i' with hash := some (emptyHash E) } c') := ⟨h1.1, h1.2⟩
              split
              · exact h2
              · exact gens_expandValue h2
            · split
              · exact h1
              · exact gens_expandValue h1
    · exact gens_expandValue h

theorem gens_getF {g : UInt64} (hg : Q g) : ∀ (f : Nat) (n : BNode V) (q : List Nib), Gens Q n → Gens Q (getF E D g f n q).1 := by
  intro f
  induction f with
  | zero => intro n q h; exact h
  | succ f ih =>
    intro n q h
    have hx := gens_fullExpand (E := E) (D := D) hg h
    rw [getF]
    split
    · trivial
    · next he => rw [he] at hx; exact hx
    · next i c he =>
      rw [he] at hx
      split
      · exact hx
      · split
        · exact hx
        · split
          · split
            · exact hx
            · next k q' _ =>
              split
              · exact hx
              · exact ⟨hx.1, each_setKid hx.2 (ih _ _ (hx.2 k))⟩
          · exact hx

theorem gens_leaf {g : UInt64} (hg : Q g) (p : List Nib) (x : V) : Gens Q (leafB g p x) := ⟨hg, each_noKids⟩

theorem gens_insertAt {g : UInt64} (hg : Q g) (rec : BNode V → List Nib → PutResB V) (hrec : ∀ n q, Gens Q n → Gens Q (rec n q).node)
    {i : Info V} {c : Nib → BNode V} (h : Gens Q (.mk i c)) (q : List Nib) (x : V) : Gens Q (insertAt E g rec i c q x).node := by
  rw [insertAt]
  simp only
  split
  · exact ⟨hg, h.2⟩
  · split
    · exact ⟨hg, h.2⟩
    · split
      · split
        · exact ⟨hg, h.2⟩
        · split
          · exact ⟨hg, each_setKid h.2 (gens_leaf hg _ _)⟩
          · refine ⟨?_, each_setKid h.2 (hrec _ _ (h.2 _))⟩
            simp only
            split <;> exact hg
      · next j p' _ =>
        have hold : ∀ k, Gens Q (setKid noKids j (.mk { ({ i with gen := g } : Info V).touch with pre := p' } c) k) :=
          each_setKid each_noKids ⟨hg, h.2⟩
        split
        · exact ⟨hg, hold⟩
        · exact ⟨hg, each_setKid hold (gens_leaf hg _ _)⟩

theorem gens_insertF {g : UInt64} (hg : Q g) (x : V) : ∀ (f : Nat) (n : BNode V) (q : List Nib), Gens Q n → Gens Q (insertF E D g x f n q).node := by
  intro f
  induction f with
  | zero => intro n q h; exact h
  | succ f ih =>
    intro n q h
    have hx := gens_fullExpand (E := E) (D := D) hg h
    rw [insertF]
    split
    · trivial
    · next he => rw [he] at hx; exact hx
    · next i c he =>
      rw [he] at hx
      exact gens_insertAt hg _ ih hx q x

theorem gens_mergeB {g : UInt64} (hg : Q g) {i : Info V} {c : Nib → BNode V} (h : Gens Q (.mk i c)) {r : BNode V × Bool}
    (hr : mergeB E D g i c = some r) : Gens Q r.1 := by
  rw [mergeB] at hr
  split at hr
  · cases hr; exact h
  · split at hr
    · next k _ =>
      have hx := gens_fullExpand (E := E) (D := D) hg (h.2 k)
      split at hr
      · next i2 c2 he =>
        rw [he] at hx
        cases hr
        refine ⟨?_, ?_⟩
        · simp only
          split <;> exact h.1
        · intro j
          simp only [lift]
          split
          · exact hx.2 j
          · exact each_setKid (b := .nil) h.2 trivial j
      · cases hr
    · cases hr; exact h

theorem gens_unset {i : Info V} (h : Q i.gen) : Q i.unset.gen := by
  rw [Info.unset]
  split <;> exact h

theorem gens_if {i : Info V} (h : Q i.gen) (b : Bool) : Q (if b then i.touch else i).gen := by
  cases b <;> exact h

theorem gens_removeValueB {g : UInt64} (hg : Q g) {i : Info V} {c : Nib → BNode V} (h : Gens Q (.mk i c)) {r : DelResB V}
    (hr : removeValueB E D g i c = some r) : Gens Q r.node := by
  have hu : Gens Q (.mk i.unset c) := ⟨gens_unset h.1, h.2⟩
  rw [removeValueB] at hr
  split at hr
  · cases hr; exact hu
  · rw [Option.map_eq_some_iff] at hr
    obtain ⟨m, h1, rfl⟩ := hr
    exact gens_mergeB hg hu h1

theorem gens_deleteUp {g : UInt64} (hg : Q g) {i : Info V} {c : Nib → BNode V} (h : Gens Q (.mk i c)) {k : Nib} {x r : DelResB V} (hx : Gens Q x.node)
    (hr : deleteUp E D g i c k x = some r) : Gens Q r.node := by
  rw [deleteUp] at hr
  have hc : ∀ j, Gens Q ((if x.changed && x.remove then setKid c k .nil else setKid c k x.node) j) := by
    split
    · exact each_setKid (b := .nil) h.2 trivial
    · exact each_setKid h.2 hx
  generalize (if x.changed && x.remove then setKid c k .nil else setKid c k x.node) = c' at hr hc
  split at hr
  · cases hr
    exact ⟨gens_if h.1 _, hc⟩
  · rw [Option.map_eq_some_iff] at hr
    obtain ⟨m, h1, rfl⟩ := hr
    exact gens_mergeB hg ⟨gens_if h.1 _, hc⟩ h1

theorem gens_deleteF {g : UInt64} (hg : Q g) : ∀ (f : Nat) (n : BNode V) (q : List Nib) (r : DelResB V), Gens Q n → deleteF E D g f n q = some r →
    Gens Q r.node := by
  intro f
  induction f with
  | zero => intro n q r h hr; cases hr; exact h
  | succ f ih =>
    intro n q r h hr
    have hx := gens_fullExpand (E := E) (D := D) hg h
    rw [deleteF] at hr
    split at hr
    · cases hr; trivial
    · next he => cases hr; rw [he] at hx; exact hx
    · next i c he =>
      rw [he] at hx
      have hx' : Gens Q (.mk { i with gen := g } c) := ⟨hg, hx.2⟩
      rw [deleteAt] at hr
      split at hr
      · cases hr; exact hx
      · simp only at hr
        split at hr
        · exact gens_removeValueB hg hx' hr
        · split at hr
          · split at hr
            · exact gens_removeValueB hg hx' hr
            · split at hr
              · cases hr; exact hx'
              · rw [Option.bind_eq_some_iff] at hr
                obtain ⟨y, h1, h2⟩ := hr
                exact gens_deleteUp hg hx' (ih _ _ _ (hx.2 _) h1) h2
          · cases hr; exact hx'

theorem valueHashed_gen (i : Info V) : (valueHashed E i).gen = i.gen := by
  rw [valueHashed]
  split
  · rfl
  · split <;> rfl

theorem gens_hashed : ∀ b : BNode V, Gens Q b → Gens Q (hashed E b) := by
  intro b
  induction b with
  | nil => intro h; exact h
  | mk i c ih =>
    intro h
    rw [hashed]
    split
    · exact h
    · refine ⟨?_, fun j => ih j (h.2 j)⟩
      show Q (valueHashed E i).gen
      rw [valueHashed_gen]; exact h.1

theorem gens_saveHere (F : Faults) (L : Limits) (g : UInt64) (D : Disk) {i : Info V} {c : Nib → BNode V} (h : Gens Q (.mk i c)) :
    Gens Q (saveHere E F L g D i c).1 := by
  have h1 : Gens Q (.mk (valueHashed E i) c) := ⟨by simp only; rw [valueHashed_gen]; exact h.1, h.2⟩
  rw [saveHere]
  split
  · rw [saveOne]
    simp only
    split
    · exact h1
    · have hx := gens_hashed (E := E) _ h1
      split
      · trivial
      · next i2 c2 he =>
        rw [he] at hx
        split
        · exact ⟨hx.1, fun j => gens_hashed _ (hx.2 j)⟩
        · exact ⟨hx.1, fun j => gens_hashed _ (hx.2 j)⟩
  · split
    · rw [collapse]
      split
      · exact h
      · exact ⟨h.1, each_noKids⟩
    · split
      · rw [collapseValue]
        split
        · exact h
        · exact ⟨h.1, h.2⟩
      · exact h

theorem gens_save (F : Faults) (L : Limits) (g : UInt64) (b : BNode V) : ∀ D : Disk, Gens Q b → Gens Q (save E F L g b D).1 := by
  induction b with
  | nil => intro _ _; trivial
  | mk i c ih =>
    intro D h
    rw [save]
    refine gens_saveHere F L g _ ⟨h.1, ?_⟩
    have key : ∀ (l : List Nib) (s : (Nib → BNode V) × Disk), (∀ j, Gens Q (s.1 j)) →
        ∀ j, Gens Q ((l.foldl (fun (s : (Nib → BNode V) × Disk) j =>
          if (c j).isSome then
            let x := save E F L g (c j) s.2
            (setKid s.1 j x.1, x.2.1)
          else s) s).1 j) := by
      intro l
      induction l with
      | nil => intro s h1 j; exact h1 j
      | cons k l ihl =>
        intro s h1
        rw [List.foldl_cons]
        refine ihl _ ?_
        split
        · exact each_setKid h1 (ih k _ (h.2 k))
        · exact h1
    exact key nibbles (c, D) h.2


/-! ### Sessions with failing writes -/

/-- A call on a trie whose storage may fail. -/
inductive FOp (V : Type) where
  | get (key : Bytes)
  | put (key : Bytes) (x : V)
  | del (key : Bytes)
  | hash
  /-- `Commit`, with the `Save` calls that fail in it. -/
  | commit (F : Faults)

/-- The call as one of a session with limits `L`. -/
def FOp.sop (L : Limits) : FOp V → SOp V
  | .get k => .get k
  | .put k x => .put k x
  | .del k => .del k
  | .hash => .hash
  | .commit _ => .commit L

/-- What fails in it. -/
def FOp.faults : FOp V → Faults
  | .commit F => F
  | _ => noFaults

/-- Whether it is a commit. -/
def FOp.isCommit : FOp V → Bool
  | .commit _ => true
  | _ => false

/-- One call. -/
def fstep (E : Env V) (L : Limits) (s : Sess V) (o : FOp V) : Sess V × Out V := sstep E o.faults s (o.sop L)

/-- The session after some calls. -/
def frun (E : Env V) (L : Limits) (s : Sess V) (ops : List (FOp V)) : Sess V := ops.foldl (fun s o => (fstep E L s o).1) s

/-- The answers. -/
def fouts (E : Env V) (L : Limits) : Sess V → List (FOp V) → List (Out V)
  | _, [] => []
  | s, o :: ops => (fstep E L s o).2 :: fouts E L (fstep E L s o).1 ops

/-- The same answer, but for commits that report an error. -/
def Same (o e : Out V) : Prop := o = e ∨ (o = .done false ∧ e = .done true)

/-- The session stands for the trie in memory, and its nodes are young. -/
structure FInv (E : Env V) (s : Sess V) (h : List (Op V)) (n : Nat) : Prop where
  disk : s.D.ok
  rep : Rep E s.D s.t.root (newTrie.run h).root
  low : 1 ≤ s.t.gen.toNat
  high : s.t.gen.toNat ≤ 1 + n
  gens : Gens (fun x => 1 ≤ x.toNat ∧ x.toNat ≤ s.t.gen.toNat) s.t.root

theorem FInv.young {s : Sess V} {h : List (Op V)} {n : Nat} (hs : FInv E s h n) {L : Limits} (hn : n ≤ L.gen.toNat) :
    Each (fun i => ¬ (s.t.gen - i.gen > L.gen)) s.t.root := by
  refine each_imp (fun i hi => ?_) _ hs.gens
  have hle : i.gen ≤ s.t.gen := UInt64.le_iff_toNat_le.2 hi.2
  show ¬ (L.gen < s.t.gen - i.gen)
  rw [UInt64.lt_iff_toNat_lt, UInt64.toNat_sub_of_le _ _ hle]
  have := hs.high
  omega

theorem fstep_spec (hE : E.Lawful) {T : Node V → Prop} (hA : Apart E T) {L : Limits} {h : List (Op V)} {s : Sess V} {n : Nat}
    (hs : FInv E s h n) (o : FOp V) (hT : T (newTrie.run h).root) (hn : o.isCommit = true → n ≤ L.gen.toNat ∧ n + 2 < 2 ^ 64) :
    Same (fstep E L s o).2 (answerT E (newTrie.run h) (o.sop L)) ∧
    FInv E (fstep E L s o).1 (h ++ (o.sop L).call.toList) (n + if o.isCommit then 1 else 0) := by
  have hwf := wf_run h
  have hsame : h ++ ([] : List (Op V)) = h := List.append_nil h
  cases o with
  | get k =>
    obtain ⟨h1, h2⟩ := get_step hE hs.rep hwf k
    refine ⟨Or.inl (by simp only [fstep, FOp.sop, sstep, h1]; rfl), ?_⟩
    simp only [FOp.sop, SOp.call, Option.toList, hsame, FOp.isCommit, Bool.false_eq_true, if_false, Nat.add_zero]
    exact ⟨hs.disk, h2, hs.low, hs.high, gens_getF ⟨hs.low, Nat.le_refl _⟩ _ _ _ hs.gens⟩
  | put k x =>
    obtain ⟨h1, -, h2⟩ := put_step hE hs.rep hwf k x
    refine ⟨Or.inl (by simp only [fstep, FOp.sop, sstep, h1]; rfl), ?_⟩
    simp only [FOp.sop, SOp.call, Option.toList, FOp.isCommit, Bool.false_eq_true, if_false, Nat.add_zero]
    refine ⟨hs.disk, ?_, hs.low, hs.high, gens_insertF ⟨hs.low, Nat.le_refl _⟩ _ _ _ _ hs.gens⟩
    rw [run_concat]; exact h2
  | del k =>
    obtain ⟨t', h1, -, hg, h2⟩ := del_step hE hs.rep hwf k
    have hstep : fstep E L s (.del k) = (⟨t', s.D⟩, .deleted (delete (newTrie.run h).root (keyToPrefix k)).changed
        (delete (newTrie.run h).root (keyToPrefix k)).old) := by simp only [fstep, FOp.sop, sstep, h1]
    rw [hstep]
    refine ⟨Or.inl rfl, ?_⟩
    simp only [FOp.sop, SOp.call, Option.toList, FOp.isCommit, Bool.false_eq_true, if_false, Nat.add_zero]
    have hgens : Gens (fun x => 1 ≤ x.toNat ∧ x.toNat ≤ s.t.gen.toNat) t'.root := by
      rw [BTrie.del, Option.map_eq_some_iff] at h1
      obtain ⟨m, h3, h4⟩ := h1
      have h5 := gens_deleteF (E := E) (D := s.D) (Q := fun x => 1 ≤ x.toNat ∧ x.toNat ≤ s.t.gen.toNat) ⟨hs.low, Nat.le_refl _⟩ _ _ _ _ hs.gens h3
      rw [Prod.mk.injEq] at h4
      rw [← h4.1]
      simp only
      split
      · cases hm : m.node with
        | nil => trivial
        | mk i c =>
          rw [hm] at h5
          rw [clearPrefixB]
          split
          · exact h5
          · exact ⟨h5.1, h5.2⟩
      · exact h5
    refine ⟨hs.disk, ?_, by rw [hg]; exact hs.low, by rw [hg]; exact hs.high, by rw [hg]; exact hgens⟩
    rw [run_concat]; exact h2
  | hash =>
    obtain ⟨h1, h2⟩ := hash_step hs.rep hwf
    refine ⟨Or.inl (by simp only [fstep, FOp.sop, sstep, h1]; rfl), ?_⟩
    simp only [FOp.sop, SOp.call, Option.toList, hsame, FOp.isCommit, Bool.false_eq_true, if_false, Nat.add_zero]
    exact ⟨hs.disk, h2, hs.low, hs.high, gens_hashed _ hs.gens⟩
  | commit F =>
    have hT0 : nodesOf T (newTrie.run h).root := ⟨hwf.isSome, _, hT, Sub.refl _⟩
    have S := save_weak hE (hA.ghost hE) F L s.t.gen s.t.root hs.disk hs.rep hwf hT0 (hs.young (hn rfl).1)
    have hg := gens_save (E := E) F L s.t.gen s.t.root s.D hs.gens
    simp only [FOp.sop, SOp.call, Option.toList, hsame, FOp.isCommit, if_true]
    have hlow := hs.low
    have hhigh := hs.high
    have hlt := (hn rfl).2
    cases hb : (save E F L s.t.gen s.t.root s.D).2.2 with
    | true =>
      have hstep : fstep E L s (.commit F) = (⟨⟨(save E F L s.t.gen s.t.root s.D).1, s.t.count, s.t.gen + 1⟩, (save E F L s.t.gen s.t.root s.D).2.1⟩,
          .done true) := by simp only [fstep, FOp.sop, FOp.faults, sstep, BTrie.commit, hb, if_true]
      have h1 : (s.t.gen + 1).toNat = s.t.gen.toNat + 1 := by
        rw [UInt64.toNat_add]
        show (s.t.gen.toNat + 1) % 2 ^ 64 = _
        omega
      rw [hstep]
      refine ⟨Or.inl rfl, S.disk, S.rep, ?_, ?_, ?_⟩
      · show 1 ≤ (s.t.gen + 1).toNat; omega
      · show (s.t.gen + 1).toNat ≤ _; omega
      · refine each_imp (fun i hi => ⟨hi.1, ?_⟩) _ hg
        show i.gen.toNat ≤ (s.t.gen + 1).toNat
        have := hi.2
        omega
    | false =>
      have hstep : fstep E L s (.commit F) = (⟨⟨(save E F L s.t.gen s.t.root s.D).1, s.t.count, s.t.gen⟩, (save E F L s.t.gen s.t.root s.D).2.1⟩,
          .done false) := by simp only [fstep, FOp.sop, FOp.faults, sstep, BTrie.commit, hb, Bool.false_eq_true, if_false]
      rw [hstep]
      exact ⟨Or.inr ⟨rfl, rfl⟩, S.disk, S.rep, hlow, Nat.le_trans hhigh (by omega), hg⟩

/-- The number of commits. -/
def commits (ops : List (FOp V)) : Nat := (ops.filter FOp.isCommit).length

theorem fouts_spec (hE : E.Lawful) {T : Node V → Prop} (hA : Apart E T) {L : Limits} (ops : List (FOp V)) : ∀ (h : List (Op V)) (s : Sess V) (n : Nat),
    FInv E s h n → n + commits ops ≤ L.gen.toNat + 1 → n + commits ops + 1 < 2 ^ 64 →
    (∀ pre, pre <+: ops.map (FOp.sop L) → T (newTrie.run (h ++ pre.filterMap SOp.call)).root) →
    List.Forall₂ Same (fouts E L s ops) (expectT E (newTrie.run h) (ops.map (FOp.sop L))) ∧
      FInv E (frun E L s ops) (h ++ (ops.map (FOp.sop L)).filterMap SOp.call) (n + commits ops) := by
  induction ops with
  | nil => intro h s n hs _ _ _; exact ⟨.nil, by simpa [frun, commits] using hs⟩
  | cons o ops ih =>
    intro h s n hs hn1 hn2 hT
    have hc : commits (o :: ops) = (if o.isCommit then 1 else 0) + commits ops := by
      unfold commits
      rw [List.filter_cons]
      split
      · rw [List.length_cons]; omega
      · omega
    rw [hc] at hn1 hn2
    obtain ⟨h1, h2⟩ := fstep_spec hE hA (L := L) hs o (by simpa using hT [] List.nil_prefix)
      (fun ho => by rw [ho] at hn1 hn2; simp only [if_true] at hn1 hn2; omega)
    obtain ⟨h3, h4⟩ := ih _ _ _ h2 (by omega) (by omega) (by
      intro pre hp
      have := hT (o.sop L :: pre) (by simpa using hp)
      rwa [filterMap_toList, ← List.append_assoc] at this)
    rw [List.map_cons, fouts, expectT, filterMap_toList, ← List.append_assoc, hc, ← Nat.add_assoc]
    refine ⟨.cons h1 ?_, h4⟩
    rw [← run_append]
    exact h3

theorem openNil_inv {D : Disk} (hD : D.ok) : FInv E (⟨openTrie none, D⟩ : Sess V) [] 0 :=
  ⟨hD, rep_openNil, Nat.le_refl 1, Nat.le_refl 1, ⟨⟨Nat.le_refl 1, Nat.le_refl 1⟩, fun _ => trivial⟩⟩

/-- **C166, what holds** (sessions with failing writes). Let any calls be made on a new trie, and let any `Save` calls fail in its commits.
As long as there are at most as many commits as generations a node is kept in memory, and one more, every call is answered as by a map, and
`HashValue` as by a trie in memory; commits may report an error. -/
theorem C166_sessions_partial (hE : E.Lawful) (K : Bytes → Prop) (hK : PrefixFree K) (L : Limits) (ops : List (FOp V))
    (hk : ∀ o ∈ ops, ∀ k, (o.sop L).key = some k → K k) (hA : Apart E (along (ops.map (FOp.sop L)))) (D : Disk) (hD : D.ok)
    (hc : commits ops ≤ L.gen.toNat + 1) (hc' : commits ops + 1 < 2 ^ 64) :
    List.Forall₂ Same (fouts E L ⟨openTrie none, D⟩ ops) (expect E [] (ops.map (FOp.sop L))) := by
  have := (fouts_spec hE hA ops [] ⟨openTrie none, D⟩ 0 (openNil_inv hD) (by omega) (by omega) (fun pre hp => ⟨pre, hp, rfl⟩)).1
  rwa [expectT_clear _ [] inv_nil (clearOps_prefixFree hK _ [] (by simp) (by
    intro op ho k hkk
    obtain ⟨o, h1, rfl⟩ := List.mem_map.1 ho
    exact hk o h1 k hkk))] at this

/-- **C166, what holds** (repeating a commit). After such calls, whatever failed, a commit in which no `Save` fails returns nil and stores
everything: a trie opened at its hash over the same storage holds under every key the value last put there. -/
theorem C166_retry_partial (hE : E.Lawful) (K : Bytes → Prop) (hK : PrefixFree K) (L : Limits) (ops : List (FOp V))
    (hk : ∀ o ∈ ops, ∀ k, (o.sop L).key = some k → K k) (hA : Apart E (along (ops.map (FOp.sop L)))) (D : Disk) (hD : D.ok)
    (hc : commits ops ≤ L.gen.toNat) (hc' : commits ops + 1 < 2 ^ 64) (g : UInt64) (k : Bytes) (hKk : K k) :
    let s := frun E L ⟨openTrie none, D⟩ ops
    let r := s.t.commit E noFaults L s.D
    r.2.2 = true ∧ ((⟨newNode (some (r.1.hash E).2) g, 0, g⟩ : BTrie V).get E r.2.1 k).2 = spec ((ops.map (FOp.sop L)).filterMap SOp.call) k := by
  intro s r
  obtain ⟨-, hs⟩ := fouts_spec hE hA ops [] ⟨openTrie none, D⟩ 0 (openNil_inv hD) (by omega) (by omega) (fun pre hp => ⟨pre, hp, rfl⟩)
  rw [List.nil_append, Nat.zero_add] at hs
  have hkey : ∀ op ∈ ops.map (FOp.sop L), ∀ k, op.key = some k → K k := by
    intro op ho k hkk
    obtain ⟨o, h1, rfl⟩ := List.mem_map.1 ho
    exact hk o h1 k hkk
  have hwf := wf_run ((ops.map (FOp.sop L)).filterMap SOp.call)
  have hT0 : nodesOf (along (ops.map (FOp.sop L))) (newTrie.run ((ops.map (FOp.sop L)).filterMap SOp.call)).root :=
    ⟨hwf.isSome, _, ⟨_, List.prefix_refl _, rfl⟩, Sub.refl _⟩
  have S := save_weak hE (hA.ghost hE) noFaults L s.t.gen s.t.root hs.disk hs.rep hwf hT0 (hs.young hc)
  have hN := noFaults_harmless E (nodesOf (along (ops.map (FOp.sop L))))
  have hst := S.stored hN
  have hrep := rep_strong _ S.rep hst
  have hr : r = (⟨(save E noFaults L s.t.gen s.t.root s.D).1, s.t.count, s.t.gen + 1⟩, (save E noFaults L s.t.gen s.t.root s.D).2.1, true) := by
    have hd : (save E noFaults L s.t.gen s.t.root s.D).2.2 = true := S.done hN
    show s.t.commit E noFaults L s.D = _
    simp only [BTrie.commit, hd, if_true]
  rw [hr]
  refine ⟨rfl, ?_⟩
  have hh : ((⟨(save E noFaults L s.t.gen s.t.root s.D).1, s.t.count, s.t.gen + 1⟩ : BTrie V).hash E).2 = nh E (newTrie.run ((ops.map (FOp.sop L)).filterMap SOp.call)).root :=
    Store.hashOf_rep hrep hwf.isSome
  rw [hh, (Store.get_step hE (t := ⟨newNode (some _) g, 0, g⟩) (rep_open hwf hst g) hwf k).1]
  have hinv := clear_inv _ [] inv_nil (clearOps_prefixFree hK _ [] (by simp) hkey)
  rw [List.nil_append] at hinv
  refine hinv.get (clear_of_prefixFree hK _ ?_ hKk)
  intro o ho
  obtain ⟨op, h1, h2⟩ := List.mem_filterMap.1 ho
  exact hkey op h1 _ (call_key h2)

/-- The first leaf of the demonstration cannot be saved. -/
def badLeaf : Faults := ⟨fun k => k == nodeHash toyH toyRtl demoVh (leaf [] [1]), fun _ => false⟩

/-- Nothing can be saved. -/
def allBad : Faults := ⟨fun _ => true, fun _ => true⟩

/-- Two keys, failing commits, a change, another failing commit. -/
def demoFaulty : List (FOp Bytes) := [.put [0x12, 0x34] [1], .commit allBad, .put [0x12, 0x35] [2], .commit badLeaf, .hash, .get [0x12, 0x34],
  .del [0x12, 0x35], .commit badLeaf, .get [0x12, 0x34], .get [0x12, 0x35]]

example : List.Forall₂ Same (fouts toyE realLimits ⟨openTrie none, freshDisk⟩ demoFaulty) (expect toyE [] (demoFaulty.map (FOp.sop realLimits))) :=
  C166_sessions_partial toyE_lawful (fun k => k.length = 2) (prefixFree_fixed 2) realLimits demoFaulty (by decide +kernel)
    (apart_of (by decide +kernel) (by decide +kernel) (by decide +kernel)) freshDisk freshDisk_ok (by decide +kernel) (by decide +kernel)

example : let s := frun toyE realLimits ⟨openTrie none, freshDisk⟩ demoFaulty
    let r := s.t.commit toyE noFaults realLimits s.D
    r.2.2 = true ∧ ((⟨newNode (some (r.1.hash toyE).2) 7, 0, 7⟩ : BTrie Bytes).get toyE r.2.1 [0x12, 0x34]).2 = some [1] :=
  C166_retry_partial toyE_lawful (fun k => k.length = 2) (prefixFree_fixed 2) realLimits demoFaulty (by decide +kernel)
    (apart_of (by decide +kernel) (by decide +kernel) (by decide +kernel)) freshDisk freshDisk_ok (by decide +kernel) (by decide +kernel) 7 [0x12, 0x34] rfl

/-- The first commit reports an error, the others do not. -/
example : (fouts toyE realLimits ⟨openTrie none, freshDisk⟩ demoFaulty)[1]? = some (.done false) ∧
    (fouts toyE realLimits ⟨openTrie none, freshDisk⟩ demoFaulty)[3]? = some (.done true) := by decide +kernel

/-- What one would expect of a trie whose commits all return nil, whatever `Save` calls fail in them: that it still holds what was put. -/
def MemoryLaw (V : Type) : Prop := ∀ (E : Env V), E.Lawful → ∀ (len : Nat), (∀ k : Bytes, k.length ≤ len → (E.R.enc k).length ≤ 60) →
  ∀ (ops : List (FOp V)), (∀ o ∈ ops, ∀ k, (o.sop realLimits).key = some k → k.length = len) → NoCollision E (ops.map (FOp.sop realLimits)) →
  ∀ (D : Disk), D.ok → (∀ o ∈ fouts E realLimits ⟨openTrie none, D⟩ ops, o ≠ .done false) →
    fouts E realLimits ⟨openTrie none, D⟩ ops = expect E [] (ops.map (FOp.sop realLimits))

/-- Two keys, as many failing commits as make the parent old, and a look at the key. -/
def demoLost : List (FOp Bytes) := [.put [0x12, 0x34] [1], .put [0x12, 0x35] [2]] ++ List.replicate 102 (.commit badLeaf) ++ [.get [0x12, 0x34]]

set_option maxRecDepth 100000 in
/-- **C166, refuted.** The `Save` of a child fails in every commit; each commit returns nil, and the one after a hundred generations reduces
the parent to its hash: the key is gone from the trie in memory as well. -/
theorem C166_refuted : ¬ MemoryLaw Bytes := by
  intro h
  have := h toyE toyE_lawful 2 toyRtl_short demoLost (by decide +kernel) (noCollision_of (by decide +kernel) (by decide +kernel)) freshDisk freshDisk_ok
    (by decide +kernel)
  revert this
  decide +kernel

end Verif.Trie.Store.Faulty
