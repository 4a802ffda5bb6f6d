import Verif.Trie.StoreSave
import Verif.Trie.Binding

/-!
# The calls of a stored trie, one by one, against the tree they stand for
-/

namespace Verif.Trie.Store
open Verif Verif.Merkle Verif.Trie

variable {V : Type}

/-- Collapse an arbitrary set `sel` of the clean nodes, given by their paths from here, and drop the values of an
arbitrary set `selV` of clean nodes (`collapse`, `/repo/trie/node.go:920-932`, and `collapseValue`, `:934-942`, applied
anywhere in the tree).  `iterateSave` and `Collapse` only ever do this to clean nodes. -/
def foldSome (E : Env V) : (List Nib → Bool) → (List Nib → Bool) → BNode V → BNode V
  | _, _, .nil => .nil
  | sel, selV, .mk i c =>
    let c' : Nib → BNode V := fun j => foldSome E (fun q => sel (j :: q)) (fun q => selV (j :: q)) (c j)
    if i.dirty then .mk i c'
    else if sel [] then collapse E i c'
    else if selV [] then collapseValue E i c'
    else .mk i c'

variable {E : Env V} {D : Disk}

theorem foldSome_spec (hE : E.Lawful) (b : BNode V) : ∀ (sel selV : List Nib → Bool) {a : Node V}, Rep E D b a →
    Rep E D (foldSome E sel selV b) a := by
  induction b with
  | nil => intro _ _ a h; exact h
  | mk i d ih =>
    intro sel selV a h
    have h' : Rep E D (.mk i fun j => foldSome E (fun q => sel (j :: q)) (fun q => selV (j :: q)) (d j)) a := by
      obtain ⟨p, v, c, rfl, h⟩ := h
      refine ⟨p, v, c, rfl, ?_⟩
      rcases h with h | ⟨hi, hk⟩
      · refine Or.inl ⟨h.hash, h.value, h.vhash, h.vstream, fun j => ?_, h.dirty, h.stored⟩
        simp only [h.kids j]
        rfl
      · exact Or.inr ⟨hi, fun j => ih j _ _ (hk j)⟩
    rw [foldSome]
    cases hd : i.dirty with
    | true => exact h'
    | false =>
      simp only [Bool.false_eq_true, if_false]
      split
      · exact collapse_spec hE h' hd
      · split
        · exact collapseValue_spec hE h' hd
        · exact h'

theorem rep_openNil : Rep E D (openTrie (V := V) none).root (.mk [] none noChild) := by
  refine ⟨[], none, noChild, rfl, Or.inr ⟨⟨rfl, ?_, Or.inl ⟨rfl, Or.inl rfl⟩, by simp, fun _ => Or.inl ?_⟩, fun _ => rfl⟩⟩
  · exact Or.inl rfl
  · exact (isEmpty_iff _ _ _).2 ⟨rfl, rfl, fun _ => rfl⟩

/-- A trie opened from the hash of a tree that is in the storage, or of the empty trie. -/
theorem rep_open {a : Node V} (hw : WFRoot a) (hst : ∀ p v c, a = .mk p v c → isEmpty p v c = false → Stored E D a) (g : UInt64) :
    Rep E D (newNode (some (nh E a)) g) a := by
  cases a with
  | nil => exact hw.elim
  | mk p v c =>
    by_cases he : isEmpty p v c = true
    · obtain ⟨rfl, rfl, hc⟩ := (isEmpty_iff _ _ _).1 he
      refine ⟨[], none, c, rfl, Or.inr ⟨⟨rfl, Or.inl rfl, Or.inl ⟨rfl, Or.inl rfl⟩, ?_, fun _ => Or.inl he⟩, fun j => ?_⟩⟩
      · intro h hh
        exact (Option.some.inj hh).symm
      · rw [hc j]
        exact rfl
    · exact rep_new rfl (hst p v c rfl (by simpa using he))

theorem get_step (hE : E.Lawful) {t : BTrie V} {a : Node V} (h : Rep E D t.root a) (hw : WFRoot a) (k : Bytes) :
    (t.get E D k).2 = get a (keyToPrefix k) ∧ Rep E D (t.get E D k).1.root a := by
  obtain ⟨h1, h2⟩ := getF_spec hE t.gen ((keyToPrefix k).length + 1) (keyToPrefix k) (by omega) h hw
  exact ⟨h1, h2⟩

theorem put_step (hE : E.Lawful) {t : BTrie V} {a : Node V} (h : Rep E D t.root a) (hw : WFRoot a) (k : Bytes) (x : V) :
    (t.put E D k x).2 = (insert a (keyToPrefix k) x).changed ∧
    (t.put E D k x).1.count = t.count + (insert a (keyToPrefix k) x).delta ∧
    Rep E D (t.put E D k x).1.root (insert a (keyToPrefix k) x).node := by
  obtain ⟨h1, h2, h3⟩ := insertF_spec hE t.gen x ((keyToPrefix k).length + 1) (keyToPrefix k) (by omega) h hw
  refine ⟨h1, ?_, h3⟩
  rw [← h2]
  rfl

theorem clearPrefixB_spec {i : Info V} {d : Nib → BNode V} {p : List Nib} {v : Option V} {c : Nib → Node V}
    (h : Full E D i d p v c) : Rep E D (clearPrefixB (.mk i d)) (clearPrefix (.mk p v c)) := by
  rw [clearPrefixB, clearPrefix, h.ok.pre]
  by_cases hp : p = []
  · subst hp
    rw [if_pos rfl]
    exact h.rep
  · rw [if_neg hp]
    exact (rep_dirty (i := { i.touch with pre := [] }) rfl h.value h.vhash h.ok.stream rfl rfl h.kids).rep

theorem del_step (hE : E.Lawful) {t : BTrie V} {a : Node V} (h : Rep E D t.root a) (hw : WFRoot a) (k : Bytes) :
    ∃ t', t.del E D k = some (t', (delete a (keyToPrefix k)).changed, (delete a (keyToPrefix k)).old) ∧
      t'.count = t.count + (delete a (keyToPrefix k)).delta ∧ t'.gen = t.gen ∧
      Rep E D t'.root (afterDelete a (keyToPrefix k)) := by
  obtain ⟨r, hr, hok⟩ := deleteF_spec hE t.gen ((keyToPrefix k).length + 1) (keyToPrefix k) (by omega) h hw
  refine ⟨{ t with root := if r.remove then clearPrefixB r.node else r.node, count := t.count + r.delta }, ?_, ?_, rfl, ?_⟩
  · rw [BTrie.del, hr, Option.map_some, hok.changed, hok.old]
  · simp only [hok.delta]
  · simp only [afterDelete, hok.remove]
    by_cases hrem : (delete a (keyToPrefix k)).remove = true
    · rw [if_pos hrem, if_pos hrem]
      obtain ⟨i, d, p, v, c, e1, e2, hf⟩ := hok.full hrem
      rw [e1, e2]
      exact clearPrefixB_spec hf
    · rw [if_neg hrem, if_neg hrem]
      exact hok.node

theorem hash_step {t : BTrie V} {a : Node V} (h : Rep E D t.root a) (hw : WFRoot a) :
    (t.hash E).2 = nh E a ∧ Rep E D (t.hash E).1.root a :=
  ⟨hashOf_rep h hw.isSome, (hashed_spec _ h).1⟩

theorem collapse_step (hE : E.Lawful) {t : BTrie V} {a : Node V} (h : Rep E D t.root a) : Rep E D (t.collapse E).root a := by
  rw [BTrie.collapse]
  cases hr : t.root with
  | nil => rw [hr] at h; simpa [hr] using h
  | mk i c =>
    simp only
    split
    · rename_i hc
      rw [hr] at h
      refine collapse_spec hE h ?_
      simp [canCollapse] at hc
      exact hc.1.1
    · exact h

theorem commit_step (hE : E.Lawful) {G : Node V → Prop} (hG : Ghost E G) {F : Faults} (hF : Harmless E G F) (L : Limits)
    {t : BTrie V} {a : Node V} (hD : D.ok) (h : Rep E D t.root a) (hw : WFRoot a) (hg : G a) :
    let r := t.commit E F L D
    r.2.2 = true ∧ r.2.1.ok ∧ Ext E G D r.2.1 ∧ Rep E r.2.1 r.1.root a ∧
      (∀ p v c, a = .mk p v c → isEmpty p v c = false → Stored E r.2.1 a) := by
  have S := save_spec hE hG hF L t.gen t.root hD h hw hg
  exact ⟨S.done, S.disk, S.ext, S.rep, S.stored⟩

/-! ### Sets of trees without collisions -/

/-- `n` is a node of the tree `m`. -/
inductive Sub : Node V → Node V → Prop
  | refl (n) : Sub n n
  | child {n p v c} (j : Nib) : Sub n (c j) → Sub n (.mk p v c)

theorem Sub.kid {p : List Nib} {v : Option V} {c : Nib → Node V} {m : Node V} (h : Sub (.mk p v c) m) (j : Nib) :
    Sub (c j) m := by
  induction h with
  | refl => exact Sub.child j (Sub.refl _)
  | child k _ ih => exact Sub.child k ih

theorem Sub.trans {a b c : Node V} (h1 : Sub a b) (h2 : Sub b c) : Sub a c := by
  induction h2 with
  | refl => exact h1
  | child j _ ih => exact Sub.child j ih

theorem Sub.inputs_mem {H : Bytes → Bytes} {R : Rtl} {vh : V → Bytes} {n m : Node V} (h : Sub n m) :
    ∀ x ∈ inputs H R vh n, x ∈ inputs H R vh m := by
  induction h with
  | refl => exact fun x hx => hx
  | @child p v c j h ih =>
    intro x hx
    have hs : (c j).isSome = true := by
      cases hc : c j with
      | nil => rw [hc] at ih; exact absurd (ih x hx) (by simp [inputs])
      | mk => rfl
    have hid : j ∈ childIds c := (mem_childIds c j).2 hs
    rw [inputs, if_pos ((hasChildren_iff c).2 ⟨j, hs⟩)]
    simp only [List.mem_cons, List.mem_append, List.mem_flatMap]
    exact Or.inr (Or.inr (Or.inr (Or.inr ⟨j, hid, ih x hx⟩)))

theorem Sub.no64 {R : Rtl} {n m : Node V} (h : Sub n m) (hm : No64 R m) : No64 R n := by
  induction h with
  | refl => exact hm
  | child j _ ih => exact ih (hm.2 j)

theorem Sub.lookup {x : V} {p : List Nib} {c : Nib → Node V} {m : Node V} (h : Sub (.mk p (some x) c) m) :
    ∃ q, lookup m q = some x := by
  induction h with
  | refl => exact ⟨p, by simp⟩
  | @child p' v' c' j _ ih =>
    obtain ⟨q, hq⟩ := ih
    exact ⟨p' ++ j :: q, by simp [hq]⟩

theorem hashed_inj {vh : V → Bytes} (n : Node V) : ∀ (m : Node V),
    (∀ p x c p' y c', Sub (.mk p (some x) c) n → Sub (.mk p' (some y) c') m → vh x = vh y → x = y) →
    Trie.hashed vh n = Trie.hashed vh m → n = m := by
  induction n with
  | nil => intro m _ h; cases m with
    | nil => rfl
    | mk => simp [Trie.hashed] at h
  | mk p v c ih =>
    intro m hv h
    cases m with
    | nil => simp [Trie.hashed] at h
    | mk p' v' c' =>
      rw [Trie.hashed, Trie.hashed, Node.mk.injEq] at h
      obtain ⟨rfl, h2, h3⟩ := h
      have e2 : v = v' := by
        cases v <;> cases v' <;> simp at h2 ⊢
        exact hv _ _ _ _ _ _ (Sub.refl _) (Sub.refl _) h2
      have e3 : c = c' := by
        funext j
        refine ih j (c' j) ?_ (congrFun h3 j)
        intro p x d p' y d' h1 h2
        exact hv p x d p' y d' (Sub.child j h1) (Sub.child j h2)
      rw [e2, e3]

/-- The nodes of a family of trees. -/
def nodesOf (T : Node V → Prop) : Node V → Prop := fun n => n.isSome = true ∧ ∃ m, T m ∧ Sub n m

/-- A family of trees, the empty trie among them, whose hash computations never meet a collision. -/
structure Apart (E : Env V) (T : Node V → Prop) : Prop where
  empty : T (.mk [] none noChild)
  values : ∀ {a b q r x y}, T a → T b → lookup a q = some x → lookup b r = some y → E.vh x = E.vh y → x = y
  no64 : ∀ {a}, T a → No64 E.R a
  digest : ∀ {a b}, T a → T b → ¬ Collision E.H (inputs E.H E.R E.vh a) (inputs E.H E.R E.vh b)

theorem Apart.ghost (hE : E.Lawful) {T : Node V → Prop} (h : Apart E T) : Ghost E (nodesOf T) := by
  have hval : ∀ {p x c p' y c'} {a b : Node V}, T a → T b → Sub (.mk p (some x) c) a → Sub (.mk p' (some y) c') b →
      E.vh x = E.vh y → x = y := by
    intro p x c p' y c' a b ha hb h1 h2
    obtain ⟨q, hq⟩ := h1.lookup
    obtain ⟨r, hr⟩ := h2.lookup
    exact h.values ha hb hq hr
  refine ⟨⟨rfl, _, h.empty, Sub.refl _⟩, ?_, ?_, ?_⟩
  · rintro p v c ⟨-, m, hm, hs⟩ j hj
    exact ⟨hj, m, hm, hs.kid j⟩
  · rintro a b ⟨ha, m, hm, hs⟩ ⟨hb, m', hm', hs'⟩ heq
    rcases nodeHash_binding hE.hH hE.hv hE.hR a b (hs.no64 (h.no64 hm)) (hs'.no64 (h.no64 hm')) ha hb heq with e | e
    · refine hashed_inj a b ?_ e
      intro p x c p' y c' h1 h2
      exact hval hm hm' (h1.trans hs) (h2.trans hs')
    · exact absurd (e.mono hs.inputs_mem hs'.inputs_mem) (h.digest hm hm')
  · rintro p x c p' y c' ⟨-, m, hm, hs⟩ ⟨-, m', hm', hs'⟩
    exact hval hm hm' hs hs'

end Verif.Trie.Store
