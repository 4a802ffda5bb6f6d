import Verif.Trie.Store
import Verif.Trie.HashLemmas
import Verif.Trie.History

/-!
# The stored trie refines the in-memory trie

`Rep E D b a` says that the node `b` with its caches, some of it collapsed, stands over the storage `D` for the tree
`a` of level A.
-/

namespace Verif.Trie.Store
open Verif Verif.Merkle Verif.Trie

variable {V : Type}

/-- What is assumed of the functions of a trie. -/
structure Env.Lawful (E : Env V) : Prop where
  hH : ∀ b, (E.H b).length = 32
  hR : E.R.Lawful
  hv : ∀ x, (E.vh x).length = 32
  hdec : ∀ x, E.dec (E.enc x) = some x

/-- The hash of a tree. -/
abbrev nh (E : Env V) (n : Node V) : Bytes := nodeHash E.H E.R E.vh n

/-- The bytes that stand for one node in the storage. -/
def serA (E : Env V) (p : List Nib) (v : Option V) (c : Nib → Node V) : Bytes :=
  (headerOf p v c).ser E.R ++ (childIds c).flatMap (fun j => nh E (c j)) ++ (v.map E.vh).getD []

/-- A whole tree is in the storage: every node under its hash, every value under its value hash; no node has the hash
of the empty trie. -/
def Stored (E : Env V) (D : Disk) : Node V → Prop
  | .nil => True
  | .mk p v c =>
    (∃ f, D.nodes = some f ∧ f (nh E (.mk p v c)) = some (serA E p v c)) ∧
    (∀ x, v = some x → ∃ f, D.values = some f ∧ f (E.vh x) = some (E.enc x)) ∧
    nh E (.mk p v c) ≠ emptyHash E ∧ ∀ j, Stored E D (c j)

/-- The fields of an expanded node are those of the tree. -/
structure InfoOK (E : Env V) (D : Disk) (i : Info V) (p : List Nib) (v : Option V) (c : Nib → Node V) : Prop where
  pre : i.pre = p
  stream : i.vstream = none ∨ i.vstream = v.map E.enc
  value : (i.value = v ∧ (i.vhash = none ∨ i.vhash = v.map E.vh)) ∨
    (i.value = none ∧ i.dirty = false ∧ ∃ x, v = some x ∧ i.vhash = some (E.vh x))
  hash : ∀ h, i.hash = some h → h = nh E (.mk p v c)
  clean : i.dirty = false → isEmpty p v c = true ∨ (i.hash = some (nh E (.mk p v c)) ∧ Stored E D (.mk p v c))

/-- A node that is reduced to its hash. -/
structure HashOnly (E : Env V) (D : Disk) (i : Info V) (d : Nib → BNode V) (a : Node V) : Prop where
  hash : i.hash = some (nh E a)
  value : i.value = none
  vhash : i.vhash = none
  vstream : i.vstream = none
  kids : ∀ j, d j = .nil
  dirty : i.dirty = false
  stored : Stored E D a

/-- The node `b` stands for the tree `a`. -/
def Rep (E : Env V) (D : Disk) : BNode V → Node V → Prop
  | .nil, a => a = .nil
  | .mk i d, a => ∃ p v c, a = .mk p v c ∧
      (HashOnly E D i d a ∨ (InfoOK E D i p v c ∧ ∀ j, Rep E D (d j) (c j)))

/-- A completely expanded node (its children may still be collapsed). -/
structure Full (E : Env V) (D : Disk) (i : Info V) (d : Nib → BNode V) (p : List Nib) (v : Option V) (c : Nib → Node V) :
    Prop where
  ok : InfoOK E D i p v c
  value : i.value = v
  kids : ∀ j, Rep E D (d j) (c j)

variable {E : Env V} {D : Disk}

theorem Full.rep {i : Info V} {d : Nib → BNode V} {p : List Nib} {v : Option V} {c : Nib → Node V}
    (h : Full E D i d p v c) : Rep E D (.mk i d) (.mk p v c) :=
  ⟨p, v, c, rfl, Or.inr ⟨h.ok, h.kids⟩⟩

theorem Rep.isSome {b : BNode V} {a : Node V} (h : Rep E D b a) : b.isSome = a.isSome := by
  cases b with
  | nil => rw [show a = .nil from h]; rfl
  | mk i d => obtain ⟨p, v, c, rfl, -⟩ := h; rfl

theorem bnode_isSome_false (b : BNode V) : b.isSome = false ↔ b = .nil := by
  cases b <;> simp [BNode.isSome]

theorem hasKids_false (c : Nib → BNode V) : hasKids c = false ↔ ∀ j, c j = .nil := by
  simp only [hasKids, List.any_eq_false]
  constructor
  · intro h j
    have := h j (mem_nibbles j)
    rw [← bnode_isSome_false]
    simpa using this
  · intro h j _
    simp [h j, BNode.isSome]

theorem kids_isSome {d : Nib → BNode V} {c : Nib → Node V} (h : ∀ j, Rep E D (d j) (c j)) :
    (fun j => (d j).isSome) = fun j => (c j).isSome := funext fun j => (h j).isSome

theorem hasKids_eq {d : Nib → BNode V} {c : Nib → Node V} (h : ∀ j, Rep E D (d j) (c j)) :
    hasKids d = hasChildren c := by
  rw [hasKids, hasChildren, kids_isSome h]

theorem kidIds_eq {d : Nib → BNode V} {c : Nib → Node V} (h : ∀ j, Rep E D (d j) (c j)) :
    kidIds d = childIds c := by
  rw [kidIds, childIds, kids_isSome h]

theorem nh_len (hE : E.Lawful) (n : Node V) : (nh E n).length = 32 := nodeHash_len hE.hH n

theorem isEmptyNodeHash_some (hE : E.Lawful) (n : Node V) :
    isEmptyNodeHash E (some (nh E n)) = decide (nh E n = emptyHash E) := by
  simp [isEmptyNodeHash, nh_len hE n]

theorem isEmptyNodeHash_none : isEmptyNodeHash E none = true := by
  simp [isEmptyNodeHash]

theorem empty_node {p : List Nib} {v : Option V} {c : Nib → Node V} (h : isEmpty p v c = true) :
    Node.mk p v c = .mk [] none noChild := by
  obtain ⟨rfl, rfl, hc⟩ := (isEmpty_iff _ _ _).1 h
  congr 1
  funext i
  exact hc i

/-! ### Hashing -/

/-- The value of a node without cached hash is present. -/
theorem InfoOK.value_of_nohash {i : Info V} {p : List Nib} {v : Option V} {c : Nib → Node V} (h : InfoOK E D i p v c)
    (hn : i.hash = none) : i.value = v ∧ (i.vhash = none ∨ i.vhash = v.map E.vh) ∧
      (i.vstream = none ∨ i.vstream = v.map E.enc) := by
  rcases h.value with ⟨h1, h2⟩ | ⟨-, h2, x, rfl, -⟩
  · exact ⟨h1, h2, h.stream⟩
  · rcases h.clean h2 with h3 | ⟨h3, -⟩
    · rw [isEmpty_iff] at h3; simp at h3
    · rw [hn] at h3; simp at h3

theorem valueHashed_some {i : Info V} {v : Option V} (hv : i.value = v) (h1 : i.vhash = none ∨ i.vhash = v.map E.vh)
    (h2 : i.vstream = none ∨ i.vstream = v.map E.enc) :
    (valueHashed E i).value = v ∧ (v = none → valueHashed E i = i) ∧ ((valueHashed E i).vhash = none ∨
      (valueHashed E i).vhash = v.map E.vh) ∧ ((valueHashed E i).vstream = none ∨ (valueHashed E i).vstream = v.map E.enc) ∧
      (v.isSome = true → (valueHashed E i).vhash = v.map E.vh ∧ (valueHashed E i).vstream = v.map E.enc) ∧
      (valueHashed E i).pre = i.pre ∧ (valueHashed E i).hash = i.hash ∧ (valueHashed E i).dirty = i.dirty ∧
      (valueHashed E i).gen = i.gen := by
  subst hv
  rw [valueHashed]
  cases hv : i.value with
  | none =>
    refine ⟨hv, fun _ => rfl, ?_, ?_, by simp, rfl, rfl, rfl, rfl⟩
    · rw [hv] at h1; exact h1
    · rw [hv] at h2; exact h2
  | some x =>
    rw [hv] at h1 h2
    simp only
    split
    · rename_i hc
      simp only [Bool.and_eq_true] at hc
      have e1 : i.vhash = some (E.vh x) := by
        rcases h1 with h1 | h1
        · rw [h1] at hc; simp at hc
        · exact h1
      have e2 : i.vstream = some (E.enc x) := by
        rcases h2 with h2 | h2
        · rw [h2] at hc; simp at hc
        · exact h2
      exact ⟨hv, by simp, Or.inr e1, Or.inr e2, fun _ => ⟨e1, e2⟩, rfl, rfl, rfl, rfl⟩
    · exact ⟨rfl, by simp, Or.inr rfl, Or.inr rfl, fun _ => ⟨rfl, rfl⟩, rfl, rfl, rfl, rfl⟩

theorem hashedValue_eq {i : Info V} {v : Option V} (hv : i.value = v) (h1 : i.vhash = none ∨ i.vhash = v.map E.vh)
    (h2 : i.vstream = none ∨ i.vstream = v.map E.enc) : hashedValue E i = valueHashOf E.vh v := by
  obtain ⟨-, -, -, -, hs, -⟩ := valueHashed_some hv h1 h2
  rw [hashedValue]
  cases v with
  | none =>
    have : i.vhash = none := by rcases h1 with h1 | h1 <;> simpa using h1
    simp [isValueCollapsed, this, hv, valueHashOf]
  | some x =>
    have := (hs rfl).1
    simp [isValueCollapsed, hv, this, valueHashOf]

theorem headerB_eq {i : Info V} {d : Nib → BNode V} {p : List Nib} {v : Option V} {c : Nib → Node V}
    (hp : i.pre = p) (hv : i.value = v) (hk : ∀ j, Rep E D (d j) (c j)) : headerB i d = headerOf p v c := by
  rw [headerB, headerOf, hp, hv, kids_isSome hk]

/-- `HashValue` gives the hash of the tree and keeps the node standing for it. -/
theorem hashed_spec (b : BNode V) : ∀ {a : Node V}, Rep E D b a →
    Rep E D (hashed E b) a ∧ (a.isSome = true → hashOf E b = nh E a) ∧
    (∀ i d, b = .mk i d → ∃ i' d', hashed E b = .mk i' d' ∧ i'.hash = some (nh E a) ∧ i'.dirty = i.dirty ∧
      (∀ p v c, a = .mk p v c → i.hash = none → Full E D i' d' p v c)) := by
  induction b with
  | nil =>
    intro a h
    rw [show a = .nil from h]
    exact ⟨by simp [hashed, Rep], by simp [Node.isSome], by simp⟩
  | mk i d ih =>
    intro a h
    obtain ⟨p, v, c, rfl, h⟩ := h
    rw [hashOf, hashed]
    by_cases hh : i.hash.isSome = true
    · have hash : i.hash = some (nh E (.mk p v c)) := by
        rcases h with h | ⟨h, -⟩
        · exact h.hash
        · obtain ⟨x, hx⟩ := Option.isSome_iff_exists.1 hh
          rw [hx, h.hash x hx]
      simp only [hh, if_true, cached]
      refine ⟨⟨p, v, c, rfl, h⟩, fun _ => by rw [hash]; rfl, fun i1 d1 he => ?_⟩
      cases he
      exact ⟨i, d, rfl, hash, rfl, fun _ _ _ _ hn => by rw [hn] at hh; simp at hh⟩
    · have hn : i.hash = none := by simpa using hh
      have hk : InfoOK E D i p v c ∧ ∀ j, Rep E D (d j) (c j) := by
        rcases h with h | h
        · have := h.hash; rw [hn] at this; simp at this
        · exact h
      obtain ⟨hi, hk⟩ := hk
      obtain ⟨v1, v2, v3⟩ := hi.value_of_nohash hn
      obtain ⟨w1, -, w2, w3, -, w4, w5, w6, w7⟩ := valueHashed_some (E := E) v1 v2 v3
      have hval : makeHash E.H E.R (headerB i d) (hashedValue E i) ((kidIds d).map fun j => cached (hashed E (d j))) =
          nh E (.mk p v c) := by
        rw [nh, nodeHash, headerB_eq hi.pre v1 hk, hashedValue_eq v1 v2 v3, kidIds_eq hk]
        congr 1
        apply List.map_congr_left
        intro j hj
        exact (ih j (hk j)).2.1 ((mem_childIds c j).1 hj)
      have full : Full E D { valueHashed E i with hash := some (nh E (.mk p v c)) } (fun j => hashed E (d j)) p v c := by
        refine ⟨⟨?_, w3, ?_, ?_, ?_⟩, w1, fun j => (ih j (hk j)).1⟩
        · rw [← hi.pre]; exact w4
        · left; exact ⟨w1, w2⟩
        · intro h hh
          simp only [Option.some.injEq] at hh
          exact hh.symm
        · intro hd
          simp only [w6] at hd
          rcases hi.clean hd with h | ⟨-, h⟩
          · exact Or.inl h
          · exact Or.inr ⟨rfl, h⟩
      rw [hval, if_neg hh]
      refine ⟨full.rep, fun _ => rfl, fun i1 d1 he => ?_⟩
      cases he
      refine ⟨_, _, rfl, rfl, w6, ?_⟩
      intro p' v' c' he _
      cases he
      exact full

theorem hashOf_rep {b : BNode V} {a : Node V} (h : Rep E D b a) (hs : a.isSome = true) : hashOf E b = nh E a :=
  (hashed_spec b h).2.1 hs

/-! ### Reading a stored node -/

theorem flatMap_len (l : List Nib) (f : Nib → Bytes) (h : ∀ j, (f j).length = 32) :
    (l.flatMap f).length = 32 * l.length := by
  induction l with
  | nil => rfl
  | cons a l ih =>
    simp only [List.flatMap_cons, List.length_append, h, ih, List.length_cons]
    omega

theorem readKids_spec (h : Header) (f : Nib → Bytes) (hf : ∀ j, (f j).length = 32) (rest : Bytes) (js : List Nib) :
    readKids h js ((js.filter fun j => h.hasChild j).flatMap f ++ rest) =
      some ((js.filter fun j => h.hasChild j).map fun j => (j, f j), rest) := by
  induction js with
  | nil => simp [readKids]
  | cons j js ih =>
    rw [readKids]
    by_cases hc : h.hasChild j = true
    · simp only [hc, if_true, List.filter_cons_of_pos, List.flatMap_cons, List.append_assoc]
      rw [if_neg (by simp [hf])]
      rw [List.drop_left' (hf j), List.take_left' (hf j), ih]
      simp
    · have hc' : h.hasChild j = false := by simpa using hc
      simp only [hc', Bool.false_eq_true, if_false]
      rw [List.filter_cons_of_neg (by simp [hc'])]
      exact ih

theorem kidsOf_spec (g : UInt64) (f : Nib → Bytes) (ids : List Nib) (j : Nib) :
    kidsOf (V := V) g (ids.map fun j => (j, f j)) j = if j ∈ ids then newNode (some (f j)) g else .nil := by
  rw [kidsOf, List.find?_map]
  have : ((fun e : Nib × Bytes => decide (e.1 = j)) ∘ fun j => (j, f j)) = fun k => decide (k = j) := rfl
  rw [this]
  by_cases h : j ∈ ids
  · rw [if_pos h]
    have : ids.find? (fun k => decide (k = j)) = some j := by
      clear this
      induction ids with
      | nil => simp at h
      | cons k ks ih =>
        by_cases hk : k = j
        · simp [hk]
        · rw [List.find?_cons_of_neg (by simp [hk])]
          exact ih (by simpa [Ne.symm hk] using h)
    rw [this]
    rfl
  · rw [if_neg h]
    have : ids.find? (fun k => decide (k = j)) = none := by
      rw [List.find?_eq_none]
      intro x hx
      simp only [decide_eq_true_eq]
      rintro rfl
      exact h hx
    rw [this]
    rfl

/-- Reading back the bytes of a node. -/
theorem deserB_serA (hE : E.Lawful) (i : Info V) (d : Nib → BNode V) (hd : ∀ j, d j = .nil) (hvh : i.vhash = none)
    (p : List Nib) (v : Option V) (c : Nib → Node V) :
    deserB E i d (serA E p v c) = some (.mk { i with pre := p, vhash := v.map E.vh }
      (fun j => if (c j).isSome then newNode (some (nh E (c j))) i.gen else .nil)) := by
  obtain ⟨hN, hp, hch, hval, hany⟩ := C15_header_describes_node p (fun j => (c j).isSome) v.isSome
  have hN' : (headerOf p v c).Normal := hN
  rw [deserB, serA, List.append_assoc, C15_roundtrip _ hE.hR _ hN']
  simp only [Option.bind_some]
  have hch' : (fun j => (headerOf p v c).hasChild j) = fun j => (c j).isSome := funext hch
  have hkids := readKids_spec (headerOf p v c) (fun j => nh E (c j)) (fun j => nh_len hE _) ((v.map E.vh).getD []) nibbles
  have hids : (nibbles.filter fun j => (headerOf p v c).hasChild j) = childIds c := by rw [hch', childIds]
  rw [hids] at hkids
  have hval' : ntHasValue (headerOf p v c).nt = v.isSome := hval
  have hvr : readValueHash (headerOf p v c).nt i.vhash ((v.map E.vh).getD []) = some (v.map E.vh) := by
    rw [readValueHash, hval']
    cases v with
    | none => simp [hvh]
    | some x =>
      have := hE.hv x
      simp only [Option.isSome_some, if_true, Option.map_some, Option.getD_some]
      rw [if_neg (by omega)]
      rw [List.take_of_length_le (by omega)]
  have hkid : (fun j => if (c j).isSome then newNode (some (nh E (c j))) i.gen else .nil) =
      (kidsOf i.gen ((childIds c).map fun j => (j, nh E (c j))) : Nib → BNode V) := by
    funext j
    rw [kidsOf_spec i.gen (fun j => nh E (c j))]
    have := mem_childIds c j
    by_cases hj : (c j).isSome = true
    · rw [if_pos hj, if_pos (this.2 hj)]
    · rw [if_neg hj, if_neg (fun h => hj (this.1 h))]
  have hp' : (headerOf p v c).prefix = p := hp
  by_cases hc : hasChildren c = true
  · have h1 : ntHasChildren (headerOf p v c).nt = true := by rw [headerOf_children]; exact hc
    rw [if_pos h1, hkids]
    simp only [Option.map_some, Option.bind_some, hvr, hp', hkid]
  · have h1 : ntHasChildren (headerOf p v c).nt = false := by rw [headerOf_children]; simpa using hc
    have hnil : childIds c = [] := by
      rw [childIds, List.filter_eq_nil_iff]
      intro j _
      have := (hasChildren_false c).1 (by simpa using hc) j
      simp [this, Node.isSome]
    rw [h1, hnil]
    simp only [Bool.false_eq_true, if_false, List.flatMap_nil, List.nil_append, Option.bind_some, hvr, Option.map_some,
      hp']
    congr 2
    funext j
    have := (hasChildren_false c).1 (by simpa using hc) j
    simp [this, Node.isSome, hd j]

/-- A well-formed node that is not empty has children or a value. -/
theorem WFRoot.content {p : List Nib} {v : Option V} {c : Nib → Node V} (h : WFRoot (.mk p v c)) :
    isEmpty p v c = true ∨ (v.isSome = true ∨ hasChildren c = true) := by
  rcases h with h | h
  · exact Or.inl h
  · right
    rcases h.1 with h | ⟨a, _, _, ha, _⟩
    · exact Or.inl h
    · exact Or.inr ((hasChildren_iff c).2 ⟨a, ha⟩)

theorem WF.root {n : Node V} (h : WF n) (hs : n.isSome = true) : WFRoot n := by
  cases n with
  | nil => simp [Node.isSome] at hs
  | mk p v c => exact Or.inr h

theorem WFRoot.child {p : List Nib} {v : Option V} {c : Nib → Node V} (h : WFRoot (.mk p v c)) (j : Nib) : WF (c j) := by
  rcases h with h | h
  · obtain ⟨-, -, hc⟩ := (isEmpty_iff _ _ _).1 h
    rw [hc j]; exact WF_nil
  · exact h.2 j

theorem Stored.notEmpty {p : List Nib} {v : Option V} {c : Nib → Node V} (h : Stored E D (.mk p v c)) :
    isEmpty p v c = false := by
  by_contra hc
  have hc' : isEmpty p v c = true := by simpa using hc
  have := h.2.2.1
  rw [empty_node hc'] at this
  exact this rfl

/-- The value of a value-collapsed node can be loaded. -/
theorem expandValue_spec (hE : E.Lawful) {i : Info V} {d : Nib → BNode V} {p : List Nib} {v : Option V}
    {c : Nib → Node V} (hi : InfoOK E D i p v c) (hk : ∀ j, Rep E D (d j) (c j)) :
    ∃ i', expandValue E D i d = (.mk i' d, true) ∧ Full E D i' d p v c ∧ i'.dirty = i.dirty ∧ i'.hash = i.hash := by
  rw [expandValue]
  rcases hi.value with ⟨h1, h2⟩ | ⟨h1, h2, x, rfl, h4⟩
  · have : isValueCollapsed i = false := by
      rw [isValueCollapsed, h1]
      cases v with
      | some x => simp
      | none =>
        have : i.vhash = none := by rcases h2 with h2 | h2 <;> simpa using h2
        simp [this]
    rw [if_neg (by simp [this])]
    exact ⟨i, rfl, ⟨hi, h1, hk⟩, rfl, rfl⟩
  · have hc : isValueCollapsed i = true := by
      rw [isValueCollapsed, h1, h4]
      simp [hE.hv]
    rw [if_pos hc]
    have hst : Stored E D (.mk p (some x) c) := by
      rcases hi.clean h2 with h | ⟨-, h⟩
      · rw [isEmpty_iff] at h; simp at h
      · exact h
    obtain ⟨f, hf, hfx⟩ := hst.2.1 x rfl
    have hl : (load f i.vhash).bind E.dec = some x := by
      rw [load, h4, Option.getD_some, hfx, Option.bind_some, hE.hdec]
    simp only [hf, hl]
    exact ⟨{ i with value := some x }, rfl,
      ⟨⟨hi.pre, hi.stream, Or.inl ⟨rfl, Or.inr h4⟩, hi.hash, hi.clean⟩, rfl, hk⟩, rfl, rfl⟩

theorem hashOnly_new {g : UInt64} {a : Node V} (hst : Stored E D a) :
    HashOnly E D (⟨[], none, false, some (nh E a), none, none, g⟩ : Info V) noKids a :=
  ⟨rfl, rfl, rfl, rfl, fun _ => rfl, rfl, hst⟩

theorem rep_new {g : UInt64} {a : Node V} (hs : a.isSome = true) (hst : Stored E D a) :
    Rep E D (newNode (some (nh E a)) g) a := by
  cases a with
  | nil => simp [Node.isSome] at hs
  | mk p v c => exact ⟨p, v, c, rfl, Or.inl (hashOnly_new hst)⟩

theorem hashOnly_collapsed (hE : E.Lawful) {i : Info V} {d : Nib → BNode V} {p : List Nib} {v : Option V}
    {c : Nib → Node V} (h : HashOnly E D i d (.mk p v c)) : isCollapsed E i d = true := by
  rw [isCollapsed, h.hash, isEmptyNodeHash_some hE, (hasKids_false d).2 h.kids, h.value, h.vhash]
  simp [h.stored.2.2.1]

theorem infoOK_notCollapsed (hE : E.Lawful) {i : Info V} {d : Nib → BNode V} {p : List Nib} {v : Option V}
    {c : Nib → Node V} (hi : InfoOK E D i p v c) (hk : ∀ j, Rep E D (d j) (c j)) (hw : WFRoot (.mk p v c)) :
    isCollapsed E i d = false := by
  rw [isCollapsed, hasKids_eq hk]
  rcases WFRoot.content hw with h | h | h
  · have hv : v = none := ((isEmpty_iff _ _ _).1 h).2.1
    cases hh : i.hash with
    | none => simp [isEmptyNodeHash_none]
    | some x =>
      rw [hi.hash x hh, isEmptyNodeHash_some hE, empty_node h]
      simp [emptyHash, nh]
  · rcases hi.value with ⟨h1, -⟩ | ⟨-, -, x, -, h4⟩
    · rw [h1]
      cases v with
      | none => simp at h
      | some x => simp
    · rw [h4, Option.getD_some, hE.hv]
      simp
  · simp [h]

/-- Every node that stands for a well-formed tree can be expanded. -/
theorem expand_spec (hE : E.Lawful) (g : UInt64) {b : BNode V} {p : List Nib} {v : Option V} {c : Nib → Node V}
    (h : Rep E D b (.mk p v c)) (hw : WFRoot (.mk p v c)) :
    ∃ i d, fullExpand E D g b = (.mk i d, true) ∧ Full E D i d p v c := by
  cases b with
  | nil => exact absurd (show Node.mk p v c = .nil from h) (by simp)
  | mk i d =>
    obtain ⟨p', v', c', he, h⟩ := h
    cases he
    rw [fullExpand]
    rcases h with h | ⟨hi, hk⟩
    · rw [if_pos (hashOnly_collapsed hE h), expandNode]
      obtain ⟨⟨f, hf, hfx⟩, -, hne, hkids⟩ := h.stored
      have hl : (load f i.hash).bind (deserB E { i with gen := g } d) =
          some (.mk { { i with gen := g } with pre := p, vhash := v.map E.vh }
            (fun j => if (c j).isSome then newNode (some (nh E (c j))) g else .nil)) := by
        have : load f i.hash = some (serA E p v c) := by rw [load, h.hash, Option.getD_some, hfx]
        rw [this, Option.bind_some]
        exact deserB_serA hE { i with gen := g } d h.kids h.vhash p v c
      simp only [hf, hl, afterDecode]
      have hk : ∀ j, Rep E D ((fun j => if (c j).isSome then newNode (some (nh E (c j))) g else BNode.nil) j) (c j) := by
        intro j
        by_cases hj : (c j).isSome = true
        · simp only [hj, if_true]
          exact rep_new hj (hkids j)
        · simp only [hj, if_false, Bool.false_eq_true]
          exact (isSome_false _).1 (by simpa using hj)
      have hi : InfoOK E D (⟨p, none, i.dirty, i.hash, v.map E.vh, i.vstream, g⟩ : Info V) p v c := by
        refine ⟨rfl, Or.inl h.vstream, ?_, ?_, ?_⟩
        · cases v with
          | none => exact Or.inl ⟨rfl, Or.inr rfl⟩
          | some x => exact Or.inr ⟨rfl, h.dirty, x, rfl, rfl⟩
        · intro h' hh
          have := h.hash
          rw [show i.hash = some h' from hh] at this
          simpa using this
        · intro _
          exact Or.inr ⟨h.hash, h.stored⟩
      have hval : i.value = none := h.value
      have hnc := infoOK_notCollapsed hE hi hk hw
      have hne' := Stored.notEmpty h.stored
      have herr : inErrorStatus E (⟨p, none, i.dirty, i.hash, v.map E.vh, i.vstream, g⟩ : Info V)
          (fun j => if (c j).isSome then newNode (some (nh E (c j))) g else BNode.nil) = false := by
        rw [inErrorStatus, hasKids_eq hk]
        rcases WFRoot.content hw with h1 | h1 | h1
        · rw [hne'] at h1; simp at h1
        · cases v with
          | none => simp at h1
          | some x => simp [isValueCollapsed, hE.hv]
        · simp [h1]
      rw [hval, herr]
      simp only [Bool.false_eq_true, if_false]
      rw [if_neg (by rw [hnc]; simp)]
      obtain ⟨i', h1, h2, -⟩ := expandValue_spec hE hi hk
      exact ⟨i', _, h1, h2⟩
    · rw [if_neg (by rw [infoOK_notCollapsed hE hi hk hw]; simp)]
      obtain ⟨i', h1, h2, -⟩ := expandValue_spec hE hi hk
      exact ⟨i', _, h1, h2⟩

theorem Full.isEmpty (hE : E.Lawful) {i : Info V} {d : Nib → BNode V} {p : List Nib} {v : Option V} {c : Nib → Node V}
    (h : Full E D i d p v c) : isEmptyB E i d = Trie.isEmpty p v c := by
  rw [isEmptyB, Trie.isEmpty, h.ok.pre, hasKids_eq h.kids, h.value]
  by_cases he : Trie.isEmpty p v c = true
  · have hv : v = none := ((isEmpty_iff _ _ _).1 he).2.1
    have h1 : isEmptyNodeHash E i.hash = true := by
      cases hh : i.hash with
      | none => exact isEmptyNodeHash_none
      | some x =>
        rw [h.ok.hash x hh, isEmptyNodeHash_some hE, empty_node he]
        simp [emptyHash, nh]
    have h2 : i.vhash = none := by
      rcases h.ok.value with ⟨-, h2⟩ | ⟨-, -, x, hx, -⟩
      · rw [hv] at h2; rcases h2 with h2 | h2 <;> simpa using h2
      · rw [hv] at hx; simp at hx
    rw [h1, h2]
    simp
  · have he' : Trie.isEmpty p v c = false := by simpa using he
    rw [Trie.isEmpty] at he'
    rw [he']
    simp

/-- A node is changed: its caches are invalid and it is dirty, so nothing else is required of it. -/
theorem rep_dirty {i : Info V} {d : Nib → BNode V} {p : List Nib} {v : Option V} {c : Nib → Node V} (hp : i.pre = p)
    (hv : i.value = v) (h1 : i.vhash = none ∨ i.vhash = v.map E.vh) (h2 : i.vstream = none ∨ i.vstream = v.map E.enc)
    (hh : i.hash = none) (hd : i.dirty = true) (hk : ∀ j, Rep E D (d j) (c j)) : Full E D i d p v c :=
  ⟨⟨hp, h2, Or.inl ⟨hv, h1⟩, fun h he => by rw [hh] at he; simp at he, fun h => by rw [hd] at h; simp at h⟩, hv, hk⟩

theorem Full.vhash {i : Info V} {d : Nib → BNode V} {p : List Nib} {v : Option V} {c : Nib → Node V}
    (h : Full E D i d p v c) : i.vhash = none ∨ i.vhash = v.map E.vh := by
  rcases h.ok.value with ⟨-, h2⟩ | ⟨-, -, x, rfl, h4⟩
  · exact h2
  · exact Or.inr h4

/-- A new generation number changes nothing. -/
theorem Full.gen {i : Info V} {d : Nib → BNode V} {p : List Nib} {v : Option V} {c : Nib → Node V}
    (h : Full E D i d p v c) (g : UInt64) : Full E D { i with gen := g } d p v c :=
  ⟨⟨h.ok.pre, h.ok.stream, h.ok.value, h.ok.hash, h.ok.clean⟩, h.value, h.kids⟩

theorem Full.kid {i : Info V} {d : Nib → BNode V} {p : List Nib} {v : Option V} {c : Nib → Node V}
    (h : Full E D i d p v c) {k : Nib} {b : BNode V} (hb : Rep E D b (c k)) : Full E D i (setKid d k b) p v c := by
  refine ⟨h.ok, h.value, fun j => ?_⟩
  by_cases hj : j = k
  · subst hj; simpa [setKid] using hb
  · simpa [setKid, hj] using h.kids j

theorem rep_setKid {d : Nib → BNode V} {c : Nib → Node V} (h : ∀ j, Rep E D (d j) (c j)) {k : Nib} {b : BNode V}
    {a : Node V} (hb : Rep E D b a) : ∀ j, Rep E D (setKid d k b j) (setChild c k a j) := by
  intro j
  by_cases hj : j = k
  · subst hj; simpa [setKid, setChild] using hb
  · simpa [setKid, setChild, hj] using h j

theorem rep_noKids : ∀ j, Rep E D (noKids j) (noChild (V := V) j) := fun _ => rfl

theorem rep_leaf (g : UInt64) (p : List Nib) (x : V) : Rep E D (leafB g p x) (leaf p x) :=
  (rep_dirty (i := ⟨p, some x, true, none, none, none, g⟩) rfl rfl (Or.inl rfl) (Or.inl rfl) rfl rfl rep_noKids).rep

/-! ### Get -/

theorem getF_spec (hE : E.Lawful) (g : UInt64) : ∀ (f : Nat) {b : BNode V} {a : Node V} (q : List Nib), q.length < f →
    Rep E D b a → WFRoot a → (getF E D g f b q).2 = get a q ∧ Rep E D (getF E D g f b q).1 a := by
  intro f
  induction f with
  | zero => intro b a q h; omega
  | succ f ih =>
    intro b a q hq hr hw
    cases a with
    | nil => exact hw.elim
    | mk p v c =>
      obtain ⟨i, d, he, hf⟩ := expand_spec hE g hr hw
      rw [getF, he, get]
      simp only
      by_cases hq0 : q = []
      · simp only [hq0, if_true]
        exact ⟨hf.value, hf.rep⟩
      · simp only [hq0, if_false, hf.isEmpty hE]
        by_cases hem : Trie.isEmpty p v c = true
        · simp only [hem, if_true]
          exact ⟨by trivial, hf.rep⟩
        · simp only [hem, if_false, Bool.false_eq_true, hf.ok.pre]
          by_cases hm : p.drop (matchPrefix p q) = []
          · simp only [hm, if_true]
            cases hd : q.drop (matchPrefix p q) with
            | nil => exact ⟨hf.value, hf.rep⟩
            | cons k q' =>
              have hl : q'.length < f := by
                have := congrArg List.length hd
                simp at this
                omega
              simp only
              rw [(hf.kids k).isSome]
              by_cases hck : (c k).isSome = true
              · rw [hck]
                simp only [Bool.true_eq_false, if_false]
                obtain ⟨h1, h2⟩ := ih q' hl (hf.kids k) (WF.root (WFRoot.child hw k) hck)
                exact ⟨h1, (hf.kid h2).rep⟩
              · have hck' : (c k).isSome = false := by simpa using hck
                rw [hck']
                simp only [if_true]
                rw [(isSome_false _).1 hck']
                exact ⟨by trivial, hf.rep⟩
          · simp only [hm, if_false]
            exact ⟨by trivial, hf.rep⟩

/-! ### Put -/

theorem insertF_spec (hE : E.Lawful) (g : UInt64) (x : V) : ∀ (f : Nat) {b : BNode V} {a : Node V} (q : List Nib),
    q.length < f → Rep E D b a → WFRoot a →
    (insertF E D g x f b q).changed = (insert a q x).changed ∧ (insertF E D g x f b q).delta = (insert a q x).delta ∧
    Rep E D (insertF E D g x f b q).node (insert a q x).node := by
  intro f
  induction f with
  | zero => intro b a q h; omega
  | succ f ih =>
    intro b a q hq hr hw
    cases a with
    | nil => exact hw.elim
    | mk p v c =>
      obtain ⟨i, d, he, hf⟩ := expand_spec hE g hr hw
      have hpre := hf.ok.pre
      subst hpre
      have hput : Full E D (Info.put { i with gen := g } x) d i.pre (some x) c :=
        rep_dirty hf.ok.pre rfl (Or.inl rfl) (Or.inl rfl) rfl rfl hf.kids
      have htouch : ∀ {d' : Nib → BNode V} {c' : Nib → Node V}, (∀ j, Rep E D (d' j) (c' j)) →
          Full E D (Info.touch { i with gen := g }) d' i.pre v c' := fun hk =>
        rep_dirty hf.ok.pre hf.value hf.vhash hf.ok.stream rfl rfl hk
      rw [insertF, he, insert]
      simp only
      rw [insertAt]
      simp only
      by_cases hq0 : q = []
      · simp only [hq0, if_true, hf.value]
        exact ⟨by trivial, by trivial, hput.rep⟩
      · simp only [hq0, if_false, (hf.gen g).isEmpty hE]
        by_cases hem : Trie.isEmpty i.pre v c = true
        · simp only [hem, if_true, hf.value]
          refine ⟨by trivial, by trivial, ?_⟩
          exact (rep_dirty (p := q) rfl rfl (Or.inl rfl) (Or.inl rfl) rfl rfl hf.kids).rep
        · simp only [hem, if_false, Bool.false_eq_true]
          cases hm : i.pre.drop (matchPrefix i.pre q) with
          | nil =>
            cases hd : q.drop (matchPrefix i.pre q) with
            | nil =>
              simp only [hf.value]
              exact ⟨by trivial, by trivial, hput.rep⟩
            | cons k q' =>
              have hl : q'.length < f := by
                have := congrArg List.length hd
                simp at this
                omega
              simp only
              rw [(hf.kids k).isSome]
              by_cases hck : (c k).isSome = true
              · rw [hck]
                simp only [Bool.true_eq_false, if_false]
                obtain ⟨h1, h2, h3⟩ := ih q' hl (hf.kids k) (WF.root (WFRoot.child hw k) hck)
                have hch := insert_changed (c k) hck q' x
                rw [hch] at h1
                refine ⟨by rw [h1, hch], h2, ?_⟩
                rw [h1]
                simp only [if_true]
                exact (htouch (rep_setKid hf.kids h3)).rep
              · have hck' : (c k).isSome = false := by simpa using hck
                rw [hck']
                simp only [if_true]
                exact ⟨by trivial, by trivial, (htouch (rep_setKid hf.kids (rep_leaf g q' x))).rep⟩
          | cons j p' =>
            have hold : ∀ k, Rep E D (setKid noKids j (.mk { Info.touch { i with gen := g } with pre := p' } d) k)
                (setChild noChild j (.mk p' v c) k) := by
              apply rep_setKid rep_noKids
              exact (rep_dirty (i := { Info.touch { i with gen := g } with pre := p' }) rfl hf.value hf.vhash hf.ok.stream rfl rfl hf.kids).rep
            cases hd : q.drop (matchPrefix i.pre q) with
            | nil =>
              simp only
              exact ⟨by trivial, by trivial, (rep_dirty rfl rfl (Or.inl rfl) (Or.inl rfl) rfl rfl hold).rep⟩
            | cons k q' =>
              simp only
              exact ⟨by trivial, by trivial, (rep_dirty rfl rfl (Or.inl rfl) (Or.inl rfl) rfl rfl
                (rep_setKid hold (rep_leaf g q' x))).rep⟩

/-! ### Delete -/

theorem mergeB_spec (hE : E.Lawful) (g : UInt64) {i : Info V} {d : Nib → BNode V} {p : List Nib} {v : Option V}
    {c : Nib → Node V} (h : Full E D i d p v c) (hw : ∀ j, WF (c j)) :
    ∃ n, mergeB E D g i d = some (n, (merge (.mk p v c)).2) ∧ Rep E D n (merge (.mk p v c)).1 := by
  have hpre := h.ok.pre
  subst hpre
  rw [mergeB, h.value, kidIds_eq h.kids]
  rcases merge_cases i.pre v c with ⟨hm, hn⟩ | ⟨k, p2, v2, c2, rfl, hk, hck, hm⟩
  · rw [hm]
    cases v with
    | some x => exact ⟨_, rfl, h.rep⟩
    | none =>
      simp only [Option.isSome_none, Bool.false_eq_true, if_false]
      refine ⟨.mk i d, ?_, h.rep⟩
      split
      · rename_i k hk
        exact absurd hk (hn rfl k)
      · rfl
  · rw [hm, hk]
    simp only [Option.isSome_none, Bool.false_eq_true, if_false]
    have hrk := h.kids k
    have hwk := hw k
    rw [hck] at hrk hwk
    obtain ⟨i2, d2, he, h2⟩ := expand_spec hE g hrk (Or.inr hwk)
    rw [he]
    simp only
    have hvh : i.vhash = none := by
      rcases h.vhash with h1 | h1 <;> simpa using h1
    have hkids : ∀ j, Rep E D (lift (setKid d k .nil) d2 j) (c2 j) := by
      intro j
      rw [lift]
      by_cases hj : (d2 j).isSome = true
      · simp only [hj, if_true]; exact h2.kids j
      · have hj' : (d2 j).isSome = false := by simpa using hj
        simp only [hj', Bool.false_eq_true, if_false]
        have hc2 : c2 j = .nil := by
          rw [← isSome_false, ← (h2.kids j).isSome, hj']
        rw [hc2]
        by_cases hjk : j = k
        · simp [setKid, hjk, Rep]
        · have hcj := (childIds_eq_singleton hk).2 j hjk
          have := h.kids j
          rw [hcj] at this
          simpa [setKid, hjk] using this
    have hval := h2.value
    cases v2 with
    | none =>
      simp only [hval]
      refine ⟨_, rfl, (rep_dirty (i := { i.touch with pre := i.pre ++ k :: i2.pre }) ?_ h.value (Or.inl hvh)
        (by simpa [Info.touch] using h.ok.stream) rfl rfl hkids).rep⟩
      simp [h2.ok.pre]
    | some x =>
      simp only [hval]
      refine ⟨_, rfl, (rep_dirty (i := Info.put { i.touch with pre := i.pre ++ k :: i2.pre } x) ?_ rfl (Or.inl rfl)
        (Or.inl rfl) rfl rfl hkids).rep⟩
      simp [Info.put, h2.ok.pre]

/-- What the two levels have to agree on for a deletion. -/
structure DelOK (E : Env V) (D : Disk) (r : DelResB V) (s : DelRes V) : Prop where
  changed : r.changed = s.changed
  remove : r.remove = s.remove
  old : r.old = s.old
  delta : r.delta = s.delta
  node : Rep E D r.node s.node
  full : s.remove = true → ∃ i d p v c, r.node = .mk i d ∧ s.node = .mk p v c ∧ Full E D i d p v c

theorem Full.unset {i : Info V} {d : Nib → BNode V} {p : List Nib} {v : Option V} {c : Nib → Node V}
    (h : Full E D i d p v c) : Full E D i.unset d p none c := by
  rw [Info.unset]
  split
  · exact rep_dirty h.ok.pre rfl (Or.inl rfl) (Or.inl rfl) rfl rfl h.kids
  · rename_i hv
    have : i.value = none := by simpa using hv
    rw [h.value] at this
    subst this
    exact h

theorem removeValueB_spec (hE : E.Lawful) (g : UInt64) {i : Info V} {d : Nib → BNode V} {p : List Nib} {v : Option V}
    {c : Nib → Node V} (h : Full E D i d p v c) (hw : ∀ j, WF (c j)) :
    ∃ r, removeValueB E D g i d = some r ∧ DelOK E D r (removeValue p v c) := by
  rw [removeValueB, removeValue, hasKids_eq h.kids]
  by_cases hc : hasChildren c = false
  · rw [if_pos hc, if_pos hc]
    refine ⟨_, rfl, ?_, rfl, h.value, ?_, h.unset.rep, fun _ => ⟨_, _, _, _, _, rfl, rfl, h.unset⟩⟩
    · simp only [h.value]
    · simp only [h.value]
  · rw [if_neg hc, if_neg hc]
    obtain ⟨n, hn, hr⟩ := mergeB_spec hE g h.unset hw
    rw [hn]
    refine ⟨_, rfl, ?_, rfl, h.value, ?_, hr, by simp⟩
    · simp only [h.value]
    · simp only [h.value]

theorem deleteF_spec (hE : E.Lawful) (g : UInt64) : ∀ (f : Nat) {b : BNode V} {a : Node V} (q : List Nib),
    q.length < f → Rep E D b a → WFRoot a → ∃ r, deleteF E D g f b q = some r ∧ DelOK E D r (delete a q) := by
  intro f
  induction f with
  | zero => intro b a q h; omega
  | succ f ih =>
    intro b a q hq hr hw
    cases a with
    | nil => exact hw.elim
    | mk p v c =>
      obtain ⟨i, d, he, hf⟩ := expand_spec hE g hr hw
      have hpre := hf.ok.pre
      subst hpre
      rw [deleteF, he, delete]
      simp only
      rw [deleteAt, hf.isEmpty hE]
      by_cases hem : Trie.isEmpty i.pre v c = true
      · simp only [hem, if_true]
        exact ⟨_, rfl, rfl, rfl, rfl, rfl, hf.rep, by simp⟩
      · simp only [hem, if_false, Bool.false_eq_true]
        have hwc : ∀ j, WF (c j) := WFRoot.child hw
        have hg := hf.gen g
        by_cases hq0 : q = []
        · simp only [hq0, if_true]
          exact removeValueB_spec hE g hg hwc
        · simp only [hq0, if_false]
          by_cases hm : i.pre.drop (matchPrefix i.pre q) = []
          · simp only [hm, if_true]
            cases hd : q.drop (matchPrefix i.pre q) with
            | nil => exact removeValueB_spec hE g hg hwc
            | cons k q' =>
              have hl : q'.length < f := by
                have := congrArg List.length hd
                simp at this
                omega
              simp only
              rw [(hf.kids k).isSome]
              by_cases hck : (c k).isSome = true
              · rw [hck]
                simp only [Bool.true_eq_false, if_false]
                obtain ⟨r, hr1, hr2⟩ := ih q' hl (hf.kids k) (WF.root (WFRoot.child hw k) hck)
                rw [hr1, Option.bind_some, deleteUp]
                have S := delete_spec (c k) hck (hwc k) q'
                simp only [hr2.changed, hr2.remove, hr2.old, hr2.delta]
                -- the node over the new children
                have hnode : Full E D (if (delete (c k) q').changed = true then Info.touch { i with gen := g }
                      else { i with gen := g })
                    (if ((delete (c k) q').changed && (delete (c k) q').remove) = true then setKid d k .nil
                      else setKid d k r.node) i.pre v
                    (if ((delete (c k) q').changed && (delete (c k) q').remove) = true then setChild c k .nil
                      else setChild c k (delete (c k) q').node) := by
                  have hkid : ∀ j, Rep E D ((if ((delete (c k) q').changed && (delete (c k) q').remove) = true
                      then setKid d k .nil else setKid d k r.node) j)
                      ((if ((delete (c k) q').changed && (delete (c k) q').remove) = true then setChild c k .nil
                        else setChild c k (delete (c k) q').node) j) := by
                    split
                    · exact rep_setKid hf.kids (show Rep E D .nil .nil from rfl)
                    · exact rep_setKid hf.kids hr2.node
                  by_cases hch : (delete (c k) q').changed = true
                  · rw [if_pos hch]
                    exact rep_dirty rfl hf.value hf.vhash hf.ok.stream rfl rfl hkid
                  · have hch' : (delete (c k) q').changed = false := by simpa using hch
                    rw [if_neg hch]
                    simp only [hch', Bool.false_and, Bool.false_eq_true, if_false]
                    have hsame : setChild c k (delete (c k) q').node = c := by
                      rw [S.same hch']
                      funext j
                      by_cases hj : j = k <;> simp [setChild, hj]
                    rw [hsame]
                    have := hr2.node
                    rw [S.same hch'] at this
                    exact hg.kid this
                have hwc' : ∀ j, WF ((if ((delete (c k) q').changed && (delete (c k) q').remove) = true
                    then setChild c k .nil else setChild c k (delete (c k) q').node) j) := by
                  by_cases hrem : (delete (c k) q').remove = true
                  · rw [if_pos (by rw [(S.removed hrem).1, hrem]; rfl)]
                    exact WF_setChild hwc k WF_nil
                  · have hrem' : (delete (c k) q').remove = false := by simpa using hrem
                    rw [if_neg (by simp [hrem'])]
                    exact WF_setChild hwc k (S.kept hrem')
                rw [hasKids_eq hnode.kids]
                by_cases hz : hasChildren (if ((delete (c k) q').changed && (delete (c k) q').remove) = true
                    then setChild c k .nil else setChild c k (delete (c k) q').node) = false ∧ v.isNone = true
                · rw [if_pos hz, if_pos (hf.value ▸ hz)]
                  exact ⟨_, rfl, rfl, rfl, rfl, rfl, hnode.rep, fun _ => ⟨_, _, _, _, _, rfl, rfl, hnode⟩⟩
                · rw [if_neg hz, if_neg (hf.value ▸ hz)]
                  obtain ⟨n, hn1, hn2⟩ := mergeB_spec hE g hnode hwc'
                  rw [hn1]
                  exact ⟨_, rfl, rfl, rfl, rfl, rfl, hn2, by simp⟩
              · have hck' : (c k).isSome = false := by simpa using hck
                rw [hck']
                simp only [if_true]
                exact ⟨_, rfl, rfl, rfl, rfl, rfl, hg.rep, by simp⟩
          · simp only [hm, if_false]
            exact ⟨_, rfl, rfl, rfl, rfl, rfl, hg.rep, by simp⟩

/-! ### Collapsing -/

theorem collapse_spec (hE : E.Lawful) {i : Info V} {d : Nib → BNode V} {a : Node V} (h : Rep E D (.mk i d) a)
    (hd : i.dirty = false) : Rep E D (collapse E i d) a := by
  rw [collapse]
  by_cases hc : isCollapsed E i d = true
  · rw [if_pos hc]; exact h
  · rw [if_neg hc]
    have hh : hashOf E (.mk i d) = nh E a := by
      apply hashOf_rep h
      obtain ⟨p, v, c, rfl, -⟩ := h
      rfl
    obtain ⟨p, v, c, rfl, h⟩ := h
    rw [hh]
    rcases h with h | ⟨hi, hk⟩
    · exact absurd (hashOnly_collapsed hE h) hc
    · rcases hi.clean hd with he | ⟨h1, h2⟩
      · refine ⟨p, v, c, rfl, Or.inr ⟨⟨hi.pre, Or.inl rfl, Or.inl ⟨?_, Or.inl rfl⟩, ?_, fun _ => Or.inl he⟩, ?_⟩⟩
        · exact ((isEmpty_iff _ _ _).1 he).2.1.symm
        · intro h hh
          simp only [Option.some.injEq] at hh
          exact hh.symm
        · intro j
          exact ((isEmpty_iff _ _ _).1 he).2.2 j
      · exact ⟨p, v, c, rfl, Or.inl ⟨rfl, rfl, rfl, rfl, fun _ => rfl, hd, h2⟩⟩

theorem collapseValue_spec (hE : E.Lawful) {i : Info V} {d : Nib → BNode V} {a : Node V} (h : Rep E D (.mk i d) a)
    (hd : i.dirty = false) : Rep E D (collapseValue E i d) a := by
  rw [collapseValue]
  by_cases hc : isValueCollapsed i = true
  · rw [if_pos hc]; exact h
  · rw [if_neg hc]
    obtain ⟨p, v, c, rfl, h⟩ := h
    refine ⟨p, v, c, rfl, ?_⟩
    rcases h with h | ⟨hi, hk⟩
    · left
      refine ⟨h.hash, rfl, ?_, rfl, h.kids, h.dirty, h.stored⟩
      simp [h.value]
    · right
      refine ⟨⟨hi.pre, Or.inl rfl, ?_, hi.hash, hi.clean⟩, hk⟩
      rcases hi.value with ⟨h1, h2⟩ | ⟨h1, h2, x, rfl, h4⟩
      · obtain ⟨-, -, -, -, hs, -⟩ := valueHashed_some h1 h2 hi.stream
        cases v with
        | none =>
          left
          refine ⟨rfl, Or.inl ?_⟩
          simp [h1]
        | some x =>
          right
          refine ⟨rfl, hd, x, rfl, ?_⟩
          simp only [h1, Option.isSome_some, if_true, (hs rfl).1, Option.map_some]
      · exfalso
        apply hc
        rw [isValueCollapsed, h1, h4]
        simp [hE.hv]

end Verif.Trie.Store
