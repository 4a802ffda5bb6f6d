import Verif.Trie.Json
import Verif.Merkle.Texts

/-!
# Property C177: texts of the proofs of a trie (/repo/trie/proof.go)

`NodeProof.Summary` and `ProofChain.String`, from the texts of types and headers (C167) and of Merkle proofs (C171).
-/

namespace Verif.Trie.ProofText
open Verif Verif.Hex Verif.Merkle Verif.Trie Verif.Trie.Json
open Verif.Merkle.Texts (summary C171_summary)

/-! ### The code -/

/-- `%x` of the first five bytes of the hash, or `<nil>` (`/repo/trie/proof.go:282-286`). -/
def valueText : Option Bytes → Bytes
  | some h => hexEncode (h.take 5)
  | none => ascii ['<', 'n', 'i', 'l', '>']

/-- `NodeProof.Summary` (`/repo/trie/proof.go:281-287`); a nil pointer panics. -/
def nodeSummary : Option NodeProof → Res Bytes
  | none => .panic
  | some n => .ok (ascii ['N', 'P', '{', 'P', 'T', 'Y', 'P', 'E', ':'] ++ (typeText n.ptype ++ (ascii [',', ' ', 'H', 'e', 'a', 'd', 'e', 'r', ':'] ++
      (headerText n.header ++ (ascii [',', ' ', 'V', 'a', 'l', 'u', 'e', ':'] ++ (valueText n.valueHash ++
        (ascii [',', ' ', 'C', 'h', 'i', 'l', 'd', 'r', 'e', 'n', ':'] ++ (summary n.childProofs ++ ascii ['}']))))))))

/-- The loop of `ProofChain.String` (`/repo/trie/proof.go:803-808`), and the bracket (`809`). -/
def chainLoop : Nat → List (Option NodeProof) → Res Bytes
  | _, [] => .ok (ascii [']'])
  | i, n :: l =>
    match nodeSummary n with
    | .ok s =>
      match chainLoop (i + 1) l with
      | .ok r => .ok ((if i > 0 then ascii [',', ' '] else []) ++ (s ++ r))
      | .err => .err
      | .panic => .panic
    | .err => .err
    | .panic => .panic

/-- `ProofChain.String` (`/repo/trie/proof.go:797-811`). -/
def chainString : Option (List (Option NodeProof)) → Res Bytes
  | none => .ok (ascii ['<', 'n', 'i', 'l', '>'])
  | some l => match chainLoop 0 l with
    | .ok r => .ok (ascii ['['] ++ r)
    | .err => .err
    | .panic => .panic

/-! ### Specification -/

/-- What is shown of a proof: its type as far as it has a meaning, the header but for what C167 names, five bytes of the hash, the path and
the number of hashes. -/
def Alike (n m : NodeProof) : Prop :=
  (n.ptype = m.ptype ∨ Unnamed n.ptype ∧ Unnamed m.ptype) ∧ SameShown n.header m.header ∧
    n.valueHash.map (·.take 5) = m.valueHash.map (·.take 5) ∧
    n.childProofs.map (fun p => (p.paths, p.hashs.length)) = m.childProofs.map fun p => (p.paths, p.hashs.length)

/-! ### Cutting the text -/

theorem decDigits_no (n : Nat) (x : UInt8) (hx : ∀ e : Fin 10, UInt8.ofNat (48 + e.val) ≠ x) : x ∉ decDigits n := by
  obtain ⟨ds, -, hf, -⟩ := (decDigits_numeral n).1
  generalize decDigits n = s at hf
  induction hf with
  | nil => simp
  | cons h _ ih =>
    obtain ⟨h1, rfl⟩ := h
    intro hc
    rcases List.mem_cons.1 hc with hc | hc
    · exact hx ⟨_, h1⟩ hc.symm
    · exact ih hc

theorem typeText_no (t : UInt8) : (44 : UInt8) ∉ typeText t := by
  unfold typeText
  have hd : ∀ n, (44 : UInt8) ∉ decDigits n := fun n => decDigits_no n 44 (by decide)
  have ha : ∀ c : Char, c ∈ ['C', 'V', 'S', 'E', 'M', 'H', '(', ')', 'N', 'A'] → (44 : UInt8) ≠ UInt8.ofNat c.toNat := by decide
  split
  · simp only [ascii, List.map_cons, List.map_nil, List.mem_append, not_or]
    exact ⟨by decide, hd _⟩
  · split
    · decide
    · split
      · decide
      · split
        · decide
        · split
          · decide
          · split
            · simp only [List.mem_append, not_or]
              exact ⟨⟨⟨⟨by decide, hd _⟩, by decide⟩, hd _⟩, by decide⟩
            · decide

theorem ntText_no (t : UInt8) : (125 : UInt8) ∉ ntText t := by
  have hb : ∀ b, (125 : UInt8) ∉ boolText b := by decide
  have hc : (125 : UInt8) ≠ hexChar (ntFirst t).toNat := by
    have hk : ∀ i : Fin 16, (125 : UInt8) ≠ hexChar i.val := by decide +kernel
    exact hk ⟨_, first_lt t⟩
  unfold ntText
  simp only [List.mem_append, not_or]
  refine ⟨by decide, hb _, by decide, hb _, by decide, hb _, ?_⟩
  split
  · simp only [List.mem_append, not_or, List.mem_singleton]
    exact ⟨⟨by decide, hc⟩, by decide⟩
  · decide

theorem digits_no (l : List Nib) : (125 : UInt8) ∉ l.map (fun i => valuebyteToHexbyte (nibByte i)) := by
  intro h
  obtain ⟨i, -, e⟩ := List.mem_map.1 h
  revert e
  revert i
  decide +kernel

/-- A header ends with the first brace. -/
theorem headerText_brace (h : Header) : ∃ a, headerText h = a ++ [125] ∧ (125 : UInt8) ∉ a := by
  refine ⟨ascii ['N', 'o', 'd', 'e', 'H', 'e', 'a', 'd', 'e', 'r', '{', 't', 'y', 'p', 'e', '='] ++ (ntText h.nt ++ (ascii [',', ' ', 'p', 'r', 'e', 'f', 'i', 'x', '='] ++
      (prefixToHexstring (keystringToPrefix h.nt h.keyString) ++ (ascii [',', ' ', 'c', 'h', 'i', 'l', 'd', 'r', 'e', 'n', '('] ++
        ((nibbles.filter h.hasChild).map (fun i => valuebyteToHexbyte (nibByte i)) ++ ascii [')']))))), ?_, ?_⟩
  · simp only [headerText, List.append_assoc]; rfl
  · simp only [List.mem_append, not_or]
    refine ⟨by decide, ntText_no _, by decide, ?_, by decide, digits_no _, by decide⟩
    rw [hexstring_eq]
    exact digits_no _

theorem header_cut {h g : Header} {x y : Bytes} (e : headerText h ++ x = headerText g ++ y) : SameShown h g ∧ x = y := by
  obtain ⟨a, ha, na⟩ := headerText_brace h
  obtain ⟨b, hb, nb⟩ := headerText_brace g
  rw [ha, hb, List.append_assoc, List.append_assoc] at e
  obtain ⟨e1, e2⟩ := cut na nb e
  exact ⟨(C167_headers h g).1 (by rw [ha, hb, e1]), e2⟩

theorem hex_no (b : Bytes) (x : UInt8) (hx : ∀ i : Fin 16, x ≠ hexChar i.val) : x ∉ hexEncode b := by
  intro h
  simp only [hexEncode, List.mem_flatMap] at h
  obtain ⟨c, -, hc⟩ := h
  simp only [List.mem_cons, List.not_mem_nil, or_false] at hc
  have h1 : c.toNat / 16 < 16 := by have := c.toNat_lt; omega
  have h2 : c.toNat % 16 < 16 := by omega
  rcases hc with hc | hc
  · exact hx ⟨_, h1⟩ (by simpa using hc)
  · exact hx ⟨_, h2⟩ (by simpa using hc)

theorem value_cut {v w : Option Bytes} {x y : Bytes} (e : valueText v ++ 44 :: x = valueText w ++ 44 :: y) :
    v.map (·.take 5) = w.map (·.take 5) ∧ x = y := by
  have hno : ∀ v, (44 : UInt8) ∉ valueText v := by
    intro v
    cases v with
    | none => decide
    | some h => exact hex_no _ 44 (by decide +kernel)
  have hlt : ∀ b : Bytes, hexEncode b ≠ ascii ['<', 'n', 'i', 'l', '>'] := by
    intro b hb
    exact hex_no b 60 (by decide +kernel) (by rw [hb]; decide)
  obtain ⟨e1, e2⟩ := cut (hno v) (hno w) e
  refine ⟨?_, e2⟩
  cases v <;> cases w <;> simp only [valueText] at e1
  · rfl
  · exact absurd e1.symm (hlt _)
  · exact absurd e1 (hlt _)
  · simp only [Option.map_some, Merkle.Texts.hexEncode_inj e1]

theorem summary_cut {p q : Option Proofs} {x y : Bytes} (e : summary p ++ 125 :: x = summary q ++ 125 :: y) :
    p.map (fun p => (p.paths, p.hashs.length)) = q.map (fun p => (p.paths, p.hashs.length)) ∧ x = y := by
  have hd : ∀ n, (125 : UInt8) ∉ decDigits n := fun n => decDigits_no n 125 (by decide)
  cases p with
  | none =>
    cases q with
    | none => exact ⟨rfl, by simpa using e⟩
    | some q => simp [summary, ascii] at e
  | some p =>
    cases q with
    | none => simp [summary, ascii] at e
    | some q =>
      have hbr : ∀ p : Proofs, ∃ a, summary (some p) = a ++ [125] ∧ (125 : UInt8) ∉ a := by
        intro p
        refine ⟨_, rfl, ?_⟩
        simp only [List.mem_append, not_or]
        exact ⟨⟨⟨by decide, hd _⟩, by decide⟩, hd _⟩
      obtain ⟨a, ha, na⟩ := hbr p
      obtain ⟨b, hb, nb⟩ := hbr q
      have e' := e
      rw [ha, hb, List.append_assoc, List.append_assoc] at e'
      obtain ⟨e1, e2⟩ := cut na nb e'
      refine ⟨(C171_summary _ _).1 (by rw [ha, hb, e1]), ?_⟩
      simpa using e2

/-- The summary of a proof in front of something. -/
theorem node_cut {n m : NodeProof} {s r x y : Bytes} (hs : nodeSummary (some n) = .ok s) (hr : nodeSummary (some m) = .ok r) (e : s ++ x = r ++ y) :
    Alike n m ∧ x = y := by
  simp only [nodeSummary, Res.ok.injEq] at hs hr
  subst hs hr
  simp only [List.append_assoc] at e
  have e1 := List.append_cancel_left e
  obtain ⟨e2, e3⟩ := cut (typeText_no _) (typeText_no _) e1
  have e4 : headerText n.header ++ _ = headerText m.header ++ _ := List.append_cancel_left (as := ascii [' ', 'H', 'e', 'a', 'd', 'e', 'r', ':']) e3
  obtain ⟨e5, e6⟩ := header_cut e4
  have e7 := List.append_cancel_left e6
  obtain ⟨e8, e9⟩ := value_cut e7
  have e10 : summary n.childProofs ++ 125 :: x = summary m.childProofs ++ 125 :: y :=
    List.append_cancel_left (as := ascii [' ', 'C', 'h', 'i', 'l', 'd', 'r', 'e', 'n', ':']) e9
  obtain ⟨e11, e12⟩ := summary_cut e10
  exact ⟨⟨(C167_types _ _).1 e2, e5, e8, e11⟩, e12⟩

theorem node_alike {n m : NodeProof} (h : Alike n m) : nodeSummary (some n) = nodeSummary (some m) := by
  obtain ⟨h1, h2, h3, h4⟩ := h
  simp only [nodeSummary, (C167_types _ _).2 h1, (C167_headers _ _).2 h2, (C171_summary _ _).2 h4]
  have : valueText n.valueHash = valueText m.valueHash := by
    cases hv : n.valueHash <;> cases hw : m.valueHash <;> rw [hv, hw] at h3 <;> simp at h3
    simp only [valueText, h3]
  rw [this]

theorem chain_ok (l : List NodeProof) : ∀ i, ∃ r, chainLoop i (l.map some) = .ok r := by
  induction l with
  | nil => intro i; exact ⟨_, rfl⟩
  | cons n l ih =>
    intro i
    obtain ⟨r, hr⟩ := ih (i + 1)
    exact ⟨_, by simp only [List.map_cons, chainLoop, nodeSummary, hr]; rfl⟩

theorem chain_inj : ∀ (l k : List NodeProof) (i : Nat) (r : Bytes), chainLoop i (l.map some) = .ok r → chainLoop i (k.map some) = .ok r → List.Forall₂ Alike l k
  | [], [], _, _, _, _ => .nil
  | [], m :: k, i, r, h1, h2 => by
    obtain ⟨r2, hr2⟩ := chain_ok k (i + 1)
    simp only [List.map_nil, List.map_cons, chainLoop, nodeSummary, hr2, Res.ok.injEq] at h1 h2
    rw [← h1] at h2
    by_cases hi : i > 0 <;> simp [hi, ascii] at h2
  | n :: l, [], i, r, h1, h2 => by
    obtain ⟨r2, hr2⟩ := chain_ok l (i + 1)
    simp only [List.map_nil, List.map_cons, chainLoop, nodeSummary, hr2, Res.ok.injEq] at h1 h2
    rw [← h2] at h1
    by_cases hi : i > 0 <;> simp [hi, ascii] at h1
  | n :: l, m :: k, i, r, h1, h2 => by
    obtain ⟨r1, hr1⟩ := chain_ok l (i + 1)
    obtain ⟨r2, hr2⟩ := chain_ok k (i + 1)
    obtain ⟨s, hs⟩ : ∃ s, nodeSummary (some n) = .ok s := ⟨_, rfl⟩
    obtain ⟨u, hu⟩ : ∃ s, nodeSummary (some m) = .ok s := ⟨_, rfl⟩
    simp only [List.map_cons, chainLoop, hs, hu, hr1, hr2, Res.ok.injEq] at h1 h2
    rw [← h2] at h1
    obtain ⟨a, b⟩ := node_cut hs hu (List.append_cancel_left h1)
    rw [b] at hr1
    exact .cons a (chain_inj l k (i + 1) _ hr1 hr2)

theorem chain_eq {l k : List NodeProof} (h : List.Forall₂ Alike l k) : ∀ i, chainLoop i (l.map some) = chainLoop i (k.map some) := by
  induction h with
  | nil => intro i; rfl
  | cons h _ ih => intro i; simp only [List.map_cons, chainLoop, node_alike h, ih]

/-- **C177.**  The text of a chain of proofs without nil pointers tells how many proofs it has and shows of each, in order, what `Alike`
names and nothing else; a nil chain is told from an empty one. -/
theorem C177_chain (l k : Option (List NodeProof)) :
    (∃ r, chainString (l.map (·.map some)) = .ok r) ∧
    (chainString (l.map (·.map some)) = chainString (k.map (·.map some)) ↔
      (l = none ∧ k = none) ∨ ∃ a b, l = some a ∧ k = some b ∧ List.Forall₂ Alike a b) := by
  cases l with
  | none =>
    refine ⟨⟨_, rfl⟩, ?_⟩
    cases k with
    | none => simp
    | some b =>
      obtain ⟨r, hr⟩ := chain_ok b 0
      simp only [Option.map_none, Option.map_some, chainString, hr, Res.ok.injEq]
      constructor
      · intro h; simp [ascii] at h
      · rintro (⟨-, h⟩ | ⟨a, b', h, -⟩) <;> cases h
  | some a =>
    obtain ⟨r1, h1⟩ := chain_ok a 0
    refine ⟨⟨_, by simp only [Option.map_some, chainString, h1]; rfl⟩, ?_⟩
    cases k with
    | none =>
      simp only [Option.map_none, Option.map_some, chainString, h1, Res.ok.injEq]
      constructor
      · intro h; simp [ascii] at h
      · rintro (⟨h, -⟩ | ⟨a, b', -, h, -⟩) <;> cases h
    | some b =>
      obtain ⟨r2, h2⟩ := chain_ok b 0
      simp only [Option.map_some, chainString, h1, h2, Res.ok.injEq]
      constructor
      · intro h
        have := List.append_cancel_left h
        subst this
        exact .inr ⟨a, b, rfl, rfl, chain_inj a b 0 r1 h1 h2⟩
      · rintro (⟨h, -⟩ | ⟨a', b', ha, hb, h⟩)
        · cases h
        · rw [Option.some.injEq] at ha hb
          subst ha hb
          rw [chain_eq h 0, h2, Res.ok.injEq] at h1
          rw [h1]

/-- **C177.**  The summary of a proof shows what `Alike` names, and nothing else. -/
theorem C177_node (n m : NodeProof) : nodeSummary (some n) = nodeSummary (some m) ↔ Alike n m := by
  constructor
  · intro h
    obtain ⟨s, hs⟩ : ∃ s, nodeSummary (some m) = .ok s := ⟨_, rfl⟩
    exact (node_cut (x := []) (y := []) (h.trans hs) hs rfl).1
  · exact node_alike

/-- **C177, refuted:** "chains with different hashes have different texts": only five bytes of the hash of a value and
only the number of hashes are shown. -/
theorem C177_value_refuted (t : UInt8) (h : Header) :
    chainString (some [some ⟨t, h, some (List.replicate 32 1), some ⟨[List.replicate 32 2], 1, none⟩⟩]) =
      chainString (some [some ⟨t, h, some (List.replicate 31 1 ++ [9]), some ⟨[List.replicate 32 3], 1, none⟩⟩]) := rfl

/-- **C177, refuted:** "every chain has a text": one with a nil pointer has none, `String` panics. -/
theorem C177_nil_refuted (l : List (Option NodeProof)) : chainString (some (none :: l)) = .panic := rfl

/-- A chain of a branch and a leaf. -/
example : chainString (some [some ⟨3, ⟨0x40, [], 8, 0⟩, none, some ⟨[List.replicate 32 2], 1, none⟩⟩, some ⟨16, ⟨0x20, [], 0, 0⟩, some (List.replicate 32 171), none⟩]) =
    .ok ("[NP{PTYPE:C3, Header:NodeHeader{type=<P:false, C:true, V:false>, prefix=, children(3)}, Value:<nil>, Children:MP{Path:1 Hashs:1}}, NP{PTYPE:V, Header:NodeHeader{type=<P:false, C:false, V:true>, prefix=, children()}, Value:ababababab, Children:MP<nil>}]".toList.map fun c => UInt8.ofNat c.toNat) := by
  decide +kernel

end Verif.Trie.ProofText
