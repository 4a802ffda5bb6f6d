import Verif.Nodes.SetProps
import Verif.Shard.Props
import Verif.ByteOps.Props
import Verif.Hex.Props

/-!
# Property C138: texts, numbers and order of small values (/repo/basic.go, /repo/chaininfo.go)

Pointers to values are `Option`s.  The shortcut of the comparisons for identical pointers is left out: the values behind one
pointer are the same.  Texts are byte lists; `strconv.Itoa`, `strconv.FormatUint` and `%d` of a number that is not negative
are its decimal digits (`Nodes.itoa`); `%s` of a slice writes the texts of its elements between brackets, with blanks.
-/

namespace Verif.Small
open Verif Verif.Num Verif.Nodes

/-- `<nil>` -/
def nilText : Bytes := [60, 110, 105, 108, 62]

/-- `<NA>` -/
def naText : Bytes := [60, 78, 65, 62]

/-- /repo/basic.go:859-864 `EpochNum.String`. -/
def epochText (e : UInt64) : Bytes := if e == nilU64 then nilText else itoa e.toNat

/-- /repo/basic.go:744-752, 866-871, 1080-1088 `EraNum.String`, `EpochNum.ToString`, `Height.String`. -/
def numText : Option UInt64 → Bytes
  | none => []
  | some e => epochText e

/-- /repo/basic.go:902-910 `BlockNum.String`; `bie` is the variable `BlocksInEpoch`. -/
def blockText (bie : UInt64) (b : UInt32) : Bytes :=
  if b == nilBlock then nilText else if ¬ b.toUInt64 < bie then naText else itoa b.toNat

/-- /repo/chaininfo.go:523-528 `ChainID.String`. -/
def chainText (c : UInt32) : Bytes := if c == nilChainID then nilText else itoa c.toNat

/-- `%s` of a slice of chain ids after the first. -/
def chainsTail : List UInt32 → Bytes
  | [] => [93]
  | c :: cs => 32 :: (chainText c ++ chainsTail cs)

/-- /repo/chaininfo.go:575-583 `ChainIDs.String`; `none` is the nil slice. -/
def chainsText : Option (List UInt32) → Bytes
  | none => nilText
  | some [] => [91, 93]
  | some (c :: cs) => 91 :: (chainText c ++ chainsTail cs)

/-- A lookup in a table of names. -/
def named (table : List (Nat × Bytes)) (n : Nat) : Option Bytes := (table.find? fun p => p.1 == n).map (·.2)

/-- /repo/chaininfo.go:420-425, /repo/consts.go:54-60: `Root`, `Branch`, `Shard`, `UnknownMode`. -/
def modeNames : List (Nat × Bytes) :=
  [(16, [82, 111, 111, 116]), (17, [66, 114, 97, 110, 99, 104]), (18, [83, 104, 97, 114, 100]),
   (19, [85, 110, 107, 110, 111, 119, 110, 77, 111, 100, 101])]

/-- /repo/chaininfo.go:446-452 `ChainMode.String`. -/
def modeText (m : UInt8) : Bytes :=
  match named modeNames m.toNat with
  | some s => s
  | none => [67, 104, 97, 105, 110, 77, 111, 100, 101, 45] ++ itoa m.toNat

/-- /repo/basic.go:140-145, /repo/consts.go:62-67: `Consensus`, `Data`, `Memo`, `None`. -/
def nodeTypeNames : List (Nat × Bytes) :=
  [(0, [67, 111, 110, 115, 101, 110, 115, 117, 115]), (1, [68, 97, 116, 97]), (2, [77, 101, 109, 111]), (255, [78, 111, 110, 101])]

/-- /repo/basic.go:183-189 `NodeType.String`. -/
def nodeTypeText (n : UInt8) : Bytes :=
  match named nodeTypeNames n.toNat with
  | some s => s
  | none => [78, 65, 95] ++ itoa n.toNat

/-- /repo/chaininfo.go:427-434, /repo/consts.go:69-77: `Basic`, `CNet1`, `CNet2`, `RootData`, `BranchData`. -/
def netNames : List (Nat × Bytes) :=
  [(0, [66, 97, 115, 105, 99]), (1, [67, 78, 101, 116, 49]), (2, [67, 78, 101, 116, 50]),
   (3, [82, 111, 111, 116, 68, 97, 116, 97]), (4, [66, 114, 97, 110, 99, 104, 68, 97, 116, 97])]

/-- /repo/chaininfo.go:934-940 `NetType.String`. -/
def netText (n : UInt8) : Bytes :=
  match named netNames n.toNat with
  | some s => s
  | none => [78, 101, 116, 84, 121, 112, 101, 45] ++ itoa n.toNat

/-- /repo/basic.go:1757-1772 `ElectionType.String`: `None`, `Vrf`, `ManagedCommittee`, or `Election-` and the number. -/
def electionText (t : UInt8) : Bytes :=
  if t = 0 then [78, 111, 110, 101]
  else if t = 1 then [86, 114, 102]
  else if t = 4 then [77, 97, 110, 97, 103, 101, 100, 67, 111, 109, 109, 105, 116, 116, 101, 101]
  else [69, 108, 101, 99, 116, 105, 111, 110, 45] ++ itoa t.toNat

/-- `VRF` -/
def vrfName : Bytes := [86, 82, 70]

/-- `MANAGED` -/
def managedName : Bytes := [77, 65, 78, 65, 71, 69, 68]

/-- /repo/basic.go:168-171, 1726-1729 `StringToElectionType`; `none` is the verdict false. -/
def electionOf (name : Bytes) : Option UInt8 := if name = vrfName then some 1 else if name = managedName then some 4 else none

/-- /repo/basic.go:173-181, 1748-1755 `ElectionType.Name`: the table is the inverse of the other one. -/
def electionName (t : UInt8) : Bytes := if t = 1 then vrfName else if t = 4 then managedName else vrfName

/-- /repo/basic.go:1731-1738 `ElectionType.IsValid`. -/
def electionValid (t : UInt8) : Bool := t == 0 || t == 1 || t == 4

/-- /repo/basic.go:1740-1742 `ElectionType.IsVrf`. -/
def electionIsVrf (t : UInt8) : Bool := t == 0 || t == 1

/-- /repo/basic.go:1744-1746 `ElectionType.IsManaged`. -/
def electionIsManaged (t : UInt8) : Bool := t == 4

/-- /repo/basic.go:150-156, 1774-1780 `ElectionType.Exclusiveness`. -/
def exclusive (t : UInt8) : Bool :=
  ((([(0, false), (1, false), (2, true), (3, true), (4, true)] : List (UInt8 × Bool)).find? fun p => p.1 == t).map (·.2)).getD false

/-- /repo/basic.go:159-165, 1782-1788 `ElectionType.RewardNeeded`. -/
def rewarded (t : UInt8) : Bool :=
  ((([(0, true), (1, true), (2, false), (3, false), (4, false)] : List (UInt8 × Bool)).find? fun p => p.1 == t).map (·.2)).getD false

/-- /repo/basic.go:1703-1708 `Seed.String`. -/
def seedText : Option Bytes → Bytes
  | none => nilText
  | some s => Hex.hexEncode (s.take 5)

/-- /repo/basic.go:1345-1350 `Address.ToString`. -/
def addressText : Option Bytes → Bytes
  | none => nilText
  | some a => Hex.hexEncode a

/-- /repo/basic.go:1073-1078 `Height.FromBig`; the number and the verdict. -/
def heightOf : Option Int → UInt64 × Bool
  | none => (nilU64, false)
  | some z => if z < 0 ∨ z > 18446744073709551615 then (nilU64, false) else (UInt64.ofNat z.toNat, true)

/-- /repo/chaininfo.go:516-521 `ChainID.FromBig`. -/
def chainOf : Option Int → UInt32 × Bool
  | none => (nilChainID, false)
  | some z => if z < 0 ∨ z > 4294967295 then (nilChainID, false) else ((UInt64.ofNat z.toNat).toUInt32, true)

/-- /repo/basic.go:731-742, 820-831, 1227-1238 `Cmp` of pointers to era and epoch numbers and addresses. -/
def cmpPtr {α : Type} (cmp : α → α → Int) : Option α → Option α → Int
  | none, none => 0
  | none, some _ => -1
  | some _, none => 1
  | some a, some b => cmp a b

/-- /repo/chaininfo.go:50-56 `DataNode`. -/
structure DataNode where
  id : Bytes
  genesis : Bool
  deriving DecidableEq, Repr

/-- /repo/chaininfo.go:82-90 `DataNodes.Less`. -/
def DataNode.less (a b : DataNode) : Bool :=
  if a.genesis = b.genesis then decide (bytesCompare a.id b.id < 0) else if a.genesis then true else false

/-- /repo/chaininfo.go:557-573 `ChainIDs.Equal`: the loop. -/
def idsLoop : List UInt32 → List UInt32 → Bool
  | x :: xs, y :: ys => if x ≠ y then false else idsLoop xs ys
  | _, _ => true

/-- /repo/chaininfo.go:557-573 `ChainIDs.Equal`. -/
def chainsEqual (a b : Option (List UInt32)) : Bool :=
  match a, b with
  | none, none => true
  | some x, some y => if x.length ≠ y.length then false else idsLoop x y
  | _, _ => false

/-- /repo/basic.go:1659-1666, 1710-1715 `Seed.Clone`: `SetBytes` on a new seed. -/
def seedClone : Option Bytes → Option Bytes
  | none => none
  | some s => some (ByteOps.setBytes 32 (List.replicate 32 0) s)

/-- /repo/chaininfo.go:412-417 `ChooseConNetByEpoch`. -/
def conNet (e : UInt64) : UInt8 := if e % 2 = 0 then 1 else 2

/-- /repo/chaininfo.go:361-398 `NewNetInfo` and 400-406 `GetAddr`: the address of a net, `none` if there is none.  The five
addresses are given in the order of the parameters. -/
def netAddr (basic con1 con2 data1 data2 : Bytes) (n : UInt8) : Option Bytes :=
  let m : List (UInt8 × Bytes) :=
    (if basic.length > 0 then [(0, basic)] else []) ++ (if con1.length > 0 then [(1, con1)] else []) ++
    (if con2.length > 0 then [(2, con2)] else []) ++ (if data1.length > 0 then [(3, data1)] else []) ++
    (if data2.length > 0 then [(4, data2)] else [])
  (m.find? fun p => p.1 == n).map (·.2)

/-! ### Digits -/

/-- A decimal digit. -/
def IsDigit (c : UInt8) : Prop := 48 ≤ c.toNat ∧ c.toNat ≤ 57

theorem itoa_digits : ∀ n : Nat, ∀ c ∈ itoa n, IsDigit c := by
  intro n
  induction n using Nat.strongRecOn with
  | _ n ih =>
    have hd : ∀ k, k < 10 → IsDigit (UInt8.ofNat (48 + k)) := by
      intro k hk
      unfold IsDigit
      rw [UInt8.toNat_ofNat']
      omega
    intro c hc
    rw [itoa] at hc
    split at hc
    · rename_i h
      rw [List.mem_singleton.1 hc]; exact hd n h
    · rw [List.mem_append, List.mem_singleton] at hc
      rcases hc with hc | rfl
      · exact ih (n / 10) (by omega) c hc
      · exact hd _ (by omega)

theorem itoa_ne {n : Nat} {t : Bytes} {c : UInt8} (hc : c ∈ t) (hd : ¬ IsDigit c) : itoa n ≠ t := by
  rintro rfl
  exact hd (itoa_digits n c hc)

theorem itoa_ne_nilText (n : Nat) : itoa n ≠ nilText :=
  itoa_ne (c := 60) (by decide) (by unfold IsDigit; decide)

theorem epochText_inj (a b : UInt64) (h : epochText a = epochText b) : a = b := by
  unfold epochText at h
  split at h <;> rename_i ha <;> split at h <;> rename_i hb
  · rw [beq_iff_eq] at ha hb; rw [ha, hb]
  · exact absurd h.symm (itoa_ne_nilText _)
  · exact absurd h (itoa_ne_nilText _)
  · exact UInt64.toNat_inj.1 (itoa_inj _ _ h)

theorem epochText_ne (a : UInt64) : epochText a ≠ [] := by
  unfold epochText
  split
  · decide
  · exact itoa_ne_nil _

theorem chainText_inj (a b : UInt32) (h : chainText a = chainText b) : a = b := by
  unfold chainText at h
  split at h <;> rename_i ha <;> split at h <;> rename_i hb
  · rw [beq_iff_eq] at ha hb; rw [ha, hb]
  · exact absurd h.symm (itoa_ne_nilText _)
  · exact absurd h (itoa_ne_nilText _)
  · exact UInt32.toNat_inj.1 (itoa_inj _ _ h)

/-- The characters of the text of a chain id: no blank and no brackets. -/
theorem chainText_chars (a : UInt32) : ∀ c ∈ chainText a, c ≠ 32 ∧ c ≠ 91 ∧ c ≠ 93 := by
  unfold chainText
  split
  · decide
  · intro c hc
    have := itoa_digits _ c hc
    unfold IsDigit at this
    refine ⟨?_, ?_, ?_⟩ <;>
    · rintro rfl
      revert this
      decide

theorem split_at {P : UInt8 → Prop} : ∀ {s t : Bytes} {x y : UInt8} {u v : Bytes}, (∀ c ∈ s, P c) → (∀ c ∈ t, P c) → ¬ P x → ¬ P y →
    s ++ x :: u = t ++ y :: v → s = t ∧ x = y ∧ u = v := by
  intro s
  induction s with
  | nil =>
    intro t x y u v _ ht hx _ h
    cases t with
    | nil => simpa using h
    | cons b t =>
      simp only [List.nil_append, List.cons_append, List.cons.injEq] at h
      exact absurd (h.1 ▸ ht b (by simp)) hx
  | cons a s ih =>
    intro t x y u v hs ht hx hy h
    cases t with
    | nil =>
      simp only [List.nil_append, List.cons_append, List.cons.injEq] at h
      exact absurd (h.1 ▸ hs a (by simp)) hy
    | cons b t =>
      simp only [List.cons_append, List.cons.injEq] at h
      obtain ⟨e1, e2, e3⟩ := ih (fun c hc => hs c (by simp [hc])) (fun c hc => ht c (by simp [hc])) hx hy h.2
      exact ⟨by rw [h.1, e1], e2, e3⟩

theorem chainsTail_head (l : List UInt32) : ∃ x u, chainsTail l = x :: u ∧ ¬ (x ≠ 32 ∧ x ≠ 91 ∧ x ≠ 93) := by
  cases l with
  | nil => exact ⟨93, [], rfl, by simp⟩
  | cons c l => exact ⟨32, _, rfl, by simp⟩

theorem chainsPart_inj : ∀ (l r : List UInt32) (a b : UInt32), chainText a ++ chainsTail l = chainText b ++ chainsTail r →
    a = b ∧ l = r := by
  intro l
  induction l with
  | nil =>
    intro r a b h
    obtain ⟨y, v, hy, ny⟩ := chainsTail_head r
    rw [hy] at h
    obtain ⟨e1, e2, e3⟩ := split_at (chainText_chars a) (chainText_chars b) (by simp) ny h
    refine ⟨chainText_inj _ _ e1, ?_⟩
    cases r with
    | nil => rfl
    | cons c r =>
      rw [chainsTail] at hy
      simp only [List.cons.injEq] at hy
      rw [← e2] at hy
      exact absurd hy.1 (by decide)
  | cons d l ih =>
    intro r a b h
    obtain ⟨y, v, hy, ny⟩ := chainsTail_head r
    rw [hy] at h
    obtain ⟨e1, e2, e3⟩ := split_at (chainText_chars a) (chainText_chars b) (by simp) ny h
    refine ⟨chainText_inj _ _ e1, ?_⟩
    cases r with
    | nil =>
      rw [chainsTail] at hy
      simp only [List.cons.injEq] at hy
      rw [← e2] at hy
      exact absurd hy.1 (by decide)
    | cons c r =>
      rw [chainsTail] at hy
      simp only [List.cons.injEq] at hy
      obtain ⟨rfl, rfl⟩ := ih r d c (e3.trans hy.2.symm)
      rfl

/-! ### The claims -/

/-- **C138, texts of numbers.**  The text of a pointer to an era, an epoch or a height tells the value: nil, the nil number and
all the others have different texts. -/
theorem C138_number_text (a b : Option UInt64) : numText a = numText b ↔ a = b := by
  constructor
  · intro h
    cases a with
    | none =>
      cases b with
      | none => rfl
      | some b => exact absurd h.symm (epochText_ne b)
    | some a =>
      cases b with
      | none => exact absurd h (epochText_ne a)
      | some b => rw [epochText_inj a b h]
  · rintro rfl; rfl

/-- **C138, texts of chains.**  The text of a list of chain ids tells the list, and a nil list from an empty one. -/
theorem C138_chain_text (a b : Option (List UInt32)) : chainsText a = chainsText b ↔ a = b := by
  constructor
  · intro h
    cases a with
    | none =>
      cases b with
      | none => rfl
      | some b => cases b with
        | nil => revert h; decide
        | cons c cs => rw [chainsText, chainsText, nilText, List.cons.injEq] at h; exact absurd h.1 (by decide)
    | some a =>
      cases b with
      | none => cases a with
        | nil => revert h; decide
        | cons c cs => rw [chainsText, chainsText, nilText, List.cons.injEq] at h; exact absurd h.1 (by decide)
      | some b =>
        have hne : ∀ c cs, chainsText (some (c :: cs)) ≠ chainsText (some []) := by
          intro c cs h
          rw [chainsText, chainsText, List.cons.injEq] at h
          obtain ⟨x, u, hx, _⟩ := chainsTail_head cs
          have hl := congrArg List.length h.2
          have : chainText c ≠ [] := by
            unfold chainText; split
            · decide
            · exact itoa_ne_nil _
          have := List.length_pos_iff.2 this
          rw [hx] at hl
          simp at hl
          omega
        cases a with
        | nil => cases b with
          | nil => rfl
          | cons c cs => exact absurd h.symm (hne _ _)
        | cons d ds => cases b with
          | nil => exact absurd h (hne _ _)
          | cons c cs =>
            rw [chainsText, chainsText, List.cons.injEq] at h
            obtain ⟨rfl, rfl⟩ := chainsPart_inj _ _ _ _ h.2
            rfl
  · rintro rfl; rfl

/-- **C138, form of the text of chains.**  Brackets around the texts of the ids with spaces between them. -/
theorem C138_chain_form (l : List UInt32) : chainsText (some l) = [91] ++ List.intercalate [32] (l.map chainText) ++ [93] := by
  cases l with
  | nil => rfl
  | cons c cs =>
    have h : ∀ (cs : List UInt32) (c : UInt32), chainText c ++ chainsTail cs = List.intercalate [32] ((c :: cs).map chainText) ++ [93] := by
      intro cs
      induction cs with
      | nil => intro c; simp [chainsTail, List.intercalate]
      | cons d ds ih =>
        intro c
        have := ih d
        simp only [chainsTail]
        rw [this]
        simp [List.intercalate]
    simp only [chainsText, h cs c]
    simp

/-- **C138, equality of chain lists** is equality, nil and empty lists apart. -/
theorem C138_chains_equal (a b : Option (List UInt32)) : chainsEqual a b = true ↔ a = b := by
  have hl : ∀ x y : List UInt32, x.length = y.length → (idsLoop x y = true ↔ x = y) := by
    intro x
    induction x with
    | nil => intro y h; cases y with
      | nil => simp [idsLoop]
      | cons _ _ => simp at h
    | cons c x ih => intro y h; cases y with
      | nil => simp at h
      | cons d y =>
        rw [idsLoop]
        by_cases e : c = d
        · simp only [e, ne_eq, not_true_eq_false, if_false, List.cons.injEq, true_and]
          exact ih y (by simpa using h)
        · simp [e]
  cases a with
  | none => cases b <;> simp [chainsEqual]
  | some x => cases b with
    | none => simp [chainsEqual]
    | some y =>
      simp only [chainsEqual, Option.some.injEq]
      by_cases h : x.length = y.length
      · simp only [h, ne_eq, not_true_eq_false, if_false]; exact hl x y h
      · simp only [h, ne_eq, not_false_eq_true, if_true]
        constructor
        · intro h; cases h
        · rintro rfl; exact absurd rfl h

/-- **C138, names.**  The texts of chain modes, node types, net types and election types tell them apart. -/
theorem C138_name_text (a b : UInt8) :
    (modeText a = modeText b ↔ a = b) ∧ (nodeTypeText a = nodeTypeText b ↔ a = b) ∧ (netText a = netText b ↔ a = b) ∧
    (electionText a = electionText b ↔ a = b) := by
  -- a common argument: different names, none of which starts like the prefix
  have key : ∀ (table : List (Nat × Bytes)) (pre : Bytes),
      (table.map (·.2)).Nodup → (∀ p ∈ table, ¬ pre <+: p.2) →
      ∀ text : UInt8 → Bytes, (∀ n : UInt8, (∃ s, (n.toNat, s) ∈ table ∧ text n = s) ∨ text n = pre ++ itoa n.toNat) →
      ∀ a b : UInt8, text a = text b ↔ a = b := by
    intro table pre hnd hpre text ht a b
    constructor
    · intro h
      rcases ht a with ⟨s, hs, ea⟩ | ea <;> rcases ht b with ⟨t, hb, eb⟩ | eb
      · rw [ea, eb] at h
        subst h
        have := List.inj_on_of_nodup_map hnd hs hb rfl
        exact UInt8.toNat_inj.1 (congrArg Prod.fst this)
      · rw [ea, eb] at h
        exact absurd ⟨_, h.symm⟩ (hpre _ hs)
      · rw [ea, eb] at h
        exact absurd ⟨_, h⟩ (hpre _ hb)
      · rw [ea, eb] at h
        exact UInt8.toNat_inj.1 (itoa_inj _ _ (List.append_cancel_left h))
    · rintro rfl; rfl
  have look : ∀ (table : List (Nat × Bytes)) (n : Nat) (s : Bytes), named table n = some s → (n, s) ∈ table := by
    intro table n s h
    unfold named at h
    rw [Option.map_eq_some_iff] at h
    obtain ⟨p, hp, rfl⟩ := h
    have h1 := List.find?_some hp
    rw [beq_iff_eq] at h1
    have h2 := List.mem_of_find?_eq_some hp
    rw [← h1]
    exact h2
  refine ⟨key modeNames [67, 104, 97, 105, 110, 77, 111, 100, 101, 45] (by decide) (by decide) modeText ?_ a b, key nodeTypeNames [78, 65, 95] (by decide) (by decide) nodeTypeText ?_ a b,
    key netNames [78, 101, 116, 84, 121, 112, 101, 45] (by decide) (by decide) netText ?_ a b,
    key [(0, [78, 111, 110, 101]), (1, [86, 114, 102]), (4, [77, 97, 110, 97, 103, 101, 100, 67, 111, 109, 109, 105, 116, 116, 101, 101])]
      [69, 108, 101, 99, 116, 105, 111, 110, 45] (by decide) (by decide) electionText ?_ a b⟩
  · intro n
    unfold modeText
    split
    · rename_i s h; exact Or.inl ⟨s, look _ _ _ h, rfl⟩
    · exact Or.inr rfl
  · intro n
    unfold nodeTypeText
    split
    · rename_i s h; exact Or.inl ⟨s, look _ _ _ h, rfl⟩
    · exact Or.inr rfl
  · intro n
    unfold netText
    split
    · rename_i s h; exact Or.inl ⟨s, look _ _ _ h, rfl⟩
    · exact Or.inr rfl
  · intro n
    unfold electionText
    split
    · rename_i h; subst h; exact Or.inl ⟨_, by simp, rfl⟩
    · split
      · rename_i h; subst h; exact Or.inl ⟨_, by simp, rfl⟩
      · split
        · rename_i h; subst h; exact Or.inl ⟨_, by simp, rfl⟩
        · exact Or.inr rfl

/-- **C138, the names** of the chain modes, node types, net types and election types that have one. -/
theorem C138_names : let txt := fun s : String => s.toList.map fun c => UInt8.ofNat c.toNat
    [16, 17, 18, 19].map modeText = ["Root", "Branch", "Shard", "UnknownMode"].map txt ∧
    [0, 1, 2, 255].map nodeTypeText = ["Consensus", "Data", "Memo", "None"].map txt ∧
    [0, 1, 2, 3, 4].map netText = ["Basic", "CNet1", "CNet2", "RootData", "BranchData"].map txt ∧
    [0, 1, 4].map electionText = ["None", "Vrf", "ManagedCommittee"].map txt := by decide +kernel

/-- C138, texts of block numbers, for the numbers of an epoch and the nil number.  Missing: the other numbers, which all have
one text (`C138_block_refuted`). -/
theorem C138_block_text_partial (bie : UInt64) (a b : UInt32) (ha : a.toNat < bie.toNat ∨ a = nilBlock)
    (hb : b.toNat < bie.toNat ∨ b = nilBlock) : blockText bie a = blockText bie b ↔ a = b := by
  have key : ∀ x : UInt32, x.toNat < bie.toNat ∨ x = nilBlock →
      blockText bie x = if x = nilBlock then nilText else itoa x.toNat := by
    intro x hx
    unfold blockText
    by_cases h : x = nilBlock
    · simp [h]
    · have hlt : x.toUInt64 < bie := by
        rw [UInt64.lt_iff_toNat_lt]
        simpa using hx.resolve_right h
      simp [h, hlt]
  constructor
  · intro h
    rw [key a ha, key b hb] at h
    split at h <;> rename_i h1 <;> split at h <;> rename_i h2
    · rw [h1, h2]
    · exact absurd h.symm (itoa_ne_nilText _)
    · exact absurd h (itoa_ne_nilText _)
    · exact UInt32.toNat_inj.1 (itoa_inj _ _ h)
  · rintro rfl; rfl

/-- C138 fails for block numbers outside an epoch. -/
theorem C138_block_refuted : ∃ a b : UInt32, a ≠ b ∧ blockText 1000 a = blockText 1000 b :=
  ⟨1000, 1001, by decide, by decide +kernel⟩

/-- C138 fails for seeds: the text shows five bytes of the 32. -/
theorem C138_seed_refuted : ∃ a b : Bytes, a.length = 32 ∧ b.length = 32 ∧ a ≠ b ∧ seedText (some a) = seedText (some b) :=
  ⟨List.replicate 32 0, List.replicate 31 0 ++ [1], by decide, by decide, by decide, by decide +kernel⟩

theorem hexEncode_inj : ∀ a b : Bytes, Hex.hexEncode a = Hex.hexEncode b → a = b := by
  intro a b h
  have d : ∀ x : Bytes, Hex.hexDecode (Hex.hexEncode x) = (x, true) := fun x => (Hex.hexDecode_spec _ _).2 (Hex.forall2_hexEncode x)
  have := d a
  rw [h, d b] at this
  exact (congrArg Prod.fst this).symm

/-- **C138, texts of seeds** tell the first five bytes, no more and no less. -/
theorem C138_seed_text (a b : Bytes) (ha : a.length = 32) (hb : b.length = 32) :
    seedText (some a) = seedText (some b) ↔ ∀ i < 5, a[i]? = b[i]? := by
  have : seedText (some a) = seedText (some b) ↔ a.take 5 = b.take 5 := ⟨fun h => hexEncode_inj _ _ h, fun h => by simp [seedText, h]⟩
  rw [this]
  constructor
  · intro h i hi
    have := congrArg (fun l => l[i]?) h
    simpa [List.getElem?_take, hi] using this
  · intro h
    apply List.ext_getElem?
    intro i
    by_cases hi : i < 5
    · simpa [List.getElem?_take, hi] using h i hi
    · simp [List.getElem?_take, hi]

example : seedText (some (1 :: List.replicate 31 0)) ≠ seedText (some (List.replicate 32 0)) := by decide +kernel

/-- **C138, texts of addresses** tell the addresses, and nil. -/
theorem C138_address_text (a b : Option Bytes) : addressText a = addressText b ↔ a = b := by
  have hl : ∀ x : Bytes, (Hex.hexEncode x).length = 2 * x.length := by
    intro x
    induction x with
    | nil => rfl
    | cons c x ih =>
      rw [Hex.hexEncode, List.flatMap_cons, List.length_append, ← Hex.hexEncode, ih]
      simp only [List.length_cons, List.length_nil]
      omega
  have hn : ∀ x : Bytes, Hex.hexEncode x ≠ nilText := by
    intro x h
    have := congrArg List.length h
    rw [hl] at this
    simp only [nilText, List.length_cons, List.length_nil] at this
    omega
  constructor
  · intro h
    cases a with
    | none => cases b with
      | none => rfl
      | some b => exact absurd h.symm (hn b)
    | some a => cases b with
      | none => exact absurd h (hn a)
      | some b => rw [hexEncode_inj a b h]
  · rintro rfl; rfl

/-- **C138, big numbers.**  `FromBig` accepts exactly the numbers in range, and gives the number. -/
theorem C138_big (z : Option Int) :
    ((heightOf z).2 = true ↔ ∃ n : Nat, z = some (n : Int) ∧ n < 2 ^ 64 ∧ (heightOf z).1.toNat = n) ∧
    ((heightOf z).2 = false → (heightOf z).1 = nilU64) ∧
    ((chainOf z).2 = true ↔ ∃ n : Nat, z = some (n : Int) ∧ n < 2 ^ 32 ∧ (chainOf z).1.toNat = n) ∧
    ((chainOf z).2 = false → (chainOf z).1 = nilChainID) := by
  cases z with
  | none => simp [heightOf, chainOf]
  | some z =>
    refine ⟨?_, ?_, ?_, ?_⟩
    · unfold heightOf
      dsimp only
      split
      · rename_i h
        simp only [Bool.false_eq_true, false_iff]
        rintro ⟨n, hn, hlt, -⟩
        rw [Option.some.injEq] at hn
        omega
      · rename_i h
        simp only [true_iff]
        refine ⟨z.toNat, by rw [Option.some.injEq]; omega, by omega, ?_⟩
        rw [UInt64.toNat_ofNat']
        omega
    · unfold heightOf; dsimp only; split
      · intro; rfl
      · intro h; cases h
    · unfold chainOf
      dsimp only
      split
      · rename_i h
        simp only [Bool.false_eq_true, false_iff]
        rintro ⟨n, hn, hlt, -⟩
        rw [Option.some.injEq] at hn
        omega
      · rename_i h
        simp only [true_iff]
        refine ⟨z.toNat, by rw [Option.some.injEq]; omega, by omega, ?_⟩
        rw [UInt64.toNat_toUInt32, UInt64.toNat_ofNat']
        omega
    · unfold chainOf; dsimp only; split
      · intro; rfl
      · intro h; cases h

/-- **C138, election types.**  A name stands for a type exactly if it is `VRF` or `MANAGED`; the name of a type stands for a type
that behaves the same (excludes other elections, needs rewards) if the type is valid. -/
theorem C138_election (t : UInt8) (name : Bytes) :
    (electionOf name = some t ↔ (name = vrfName ∧ t = 1) ∨ (name = managedName ∧ t = 4)) ∧
    (electionValid t = true ↔ electionIsVrf t = true ∨ electionIsManaged t = true) ∧
    (electionValid t = true → ∃ u, electionOf (electionName t) = some u ∧ electionValid u = true ∧
      electionIsVrf u = electionIsVrf t ∧ electionIsManaged u = electionIsManaged t ∧ exclusive u = exclusive t ∧
      rewarded u = rewarded t ∧ (t ≠ 0 → u = t)) := by
  refine ⟨?_, ?_, ?_⟩
  · unfold electionOf
    split
    · rename_i h; subst h
      have : vrfName ≠ managedName := by decide
      simp [this, eq_comm]
    · rename_i h1
      split
      · rename_i h2; subst h2
        simp [h1, eq_comm]
      · rename_i h2; simp [h1, h2]
  · unfold electionValid electionIsVrf electionIsManaged
    simp
  · intro h
    have : t = 0 ∨ t = 1 ∨ t = 4 := by simpa [electionValid, or_assoc] using h
    rcases this with rfl | rfl | rfl
    · exact ⟨1, by decide⟩
    · exact ⟨1, by decide⟩
    · exact ⟨4, by decide⟩

/-- **C138, what a type of election entails.**  A valid type excludes other elections exactly if its committee is managed, and
rewards exactly if it is a VRF election; a type above those in use does neither, and no type does both. -/
theorem C138_election_duties (t : UInt8) :
    (electionValid t = true → (exclusive t = true ↔ electionIsManaged t = true) ∧ (rewarded t = true ↔ electionIsVrf t = true)) ∧
    (4 < t.toNat → exclusive t = false ∧ rewarded t = false) ∧ ¬ (exclusive t = true ∧ rewarded t = true) := by
  refine ⟨?_, ?_, ?_⟩
  · intro h
    have : t = 0 ∨ t = 1 ∨ t = 4 := by simpa [electionValid, or_assoc] using h
    rcases this with rfl | rfl | rfl <;> decide
  · intro h
    have e (k : UInt8) (hk : k.toNat ≤ 4) : (k == t) = false := by
      rw [beq_eq_false_iff_ne]; rintro rfl; omega
    simp [exclusive, rewarded, List.find?, e 0 (by decide), e 1 (by decide), e 2 (by decide), e 3 (by decide), e 4 (by decide)]
  · rintro ⟨h1, h2⟩
    by_cases e0 : t = 0
    · subst e0; revert h1; decide
    by_cases e1 : t = 1
    · subst e1; revert h1; decide
    by_cases e2 : t = 2
    · subst e2; revert h2; decide
    by_cases e3 : t = 3
    · subst e3; revert h2; decide
    by_cases e4 : t = 4
    · subst e4; revert h2; decide
    have e (k : UInt8) (hk : t ≠ k) : (k == t) = false := by
      rw [beq_eq_false_iff_ne]; exact fun h => hk h.symm
    simp [exclusive, List.find?, e 0 e0, e 1 e1, e 2 e2, e 3 e3, e 4 e4] at h1

example : exclusive 4 = true ∧ rewarded 1 = true ∧ electionValid 4 = true := by decide

/-- C138 fails for the names of the deprecated types 2 and 3: their name is that of another kind of election. -/
theorem C138_election_refuted : ∃ t u : UInt8, electionOf (electionName t) = some u ∧ exclusive u ≠ exclusive t ∧ rewarded u ≠ rewarded t :=
  ⟨2, 1, by decide, by decide, by decide⟩

/-- **C138, order of pointers.**  `Cmp` of pointers to eras, epochs and addresses is a strict total order in which nil is first. -/
theorem C138_order :
    LawfulCmp (cmpPtr heightCompare) ∧ LawfulCmp (cmpPtr bytesCompare) ∧
    (∀ a, cmpPtr heightCompare none (some a) < 0) ∧ (∀ a, cmpPtr bytesCompare none (some a) < 0) ∧
    (∀ a, a ≠ nilU64 → cmpPtr heightCompare (some nilU64) (some a) < 0) := by
  have ptr : ∀ {α : Type} {cmp : α → α → Int}, LawfulCmp cmp → LawfulCmp (cmpPtr cmp) := by
    intro α cmp L
    refine ⟨?_, ?_, ?_⟩
    · intro a b
      cases a <;> cases b <;> simp [cmpPtr, L.eq]
    · intro a b
      cases a <;> cases b <;> simp [cmpPtr, L.flip]
    · intro a b c
      cases a <;> cases b <;> cases c <;> simp [cmpPtr]
      exact L.trans _ _ _
  have key : ∀ a b : UInt64, heightCompare a b =
      if a.toNat = b.toNat then 0 else if a.toNat = 2 ^ 64 - 1 then -1 else if b.toNat = 2 ^ 64 - 1 then 1
        else if a.toNat < b.toNat then -1 else 1 := by
    intro a b
    have e : ∀ x y : UInt64, (x == y) = true ↔ x.toNat = y.toNat := by
      intro x y; rw [beq_iff_eq, UInt64.toNat_inj]
    have en : nilU64.toNat = 2 ^ 64 - 1 := rfl
    unfold heightCompare cmpNil
    simp only [e, en, UInt64.lt_iff_toNat_lt]
  have L : LawfulCmp heightCompare := by
    refine ⟨?_, ?_, ?_⟩
    · intro a b
      rw [key, ← UInt64.toNat_inj]
      split
      · simp [*]
      · rename_i hne
        simp only [hne, iff_false]
        repeat' split
        all_goals decide
    · intro a b
      rw [key a b, key b a]
      split_ifs <;> omega
    · intro a b c
      rw [key a b, key b c, key a c]
      split_ifs <;> omega
  refine ⟨ptr L, ptr bytesCompare_lawful, fun _ => by simp [cmpPtr], fun _ => by simp [cmpPtr], ?_⟩
  intro a ha
  rw [cmpPtr, key, if_neg (fun h => ha (UInt64.toNat_inj.1 h).symm), if_pos (show nilU64.toNat = 2 ^ 64 - 1 from rfl)]
  decide

/-- **C138, data nodes.**  Sorting data nodes by `Less` gives one result, however it is done: the genesis nodes and then the others,
each by their ids. -/
theorem C138_data_nodes (l r : List DataNode) (hp : r.Perm l) (hs : r.Pairwise fun a b => b.less a = false) :
    r = r.filter (·.genesis) ++ r.filter (!·.genesis) ∧
    ((r.filter (·.genesis)).map (·.id)).Pairwise (fun a b => bytesCompare a b ≤ 0) ∧
    ((r.filter (!·.genesis)).map (·.id)).Pairwise (fun a b => bytesCompare a b ≤ 0) ∧
    ∀ r' : List DataNode, r'.Perm l → (r'.Pairwise fun a b => b.less a = false) → r' = r := by
  have B := bytesCompare_lawful
  have less_iff : ∀ a b : DataNode, b.less a = false ↔
      (a.genesis = true ∧ b.genesis = false) ∨ (a.genesis = b.genesis ∧ bytesCompare a.id b.id ≤ 0) := by
    intro a b
    obtain ⟨x, p⟩ := a
    obtain ⟨y, q⟩ := b
    have := B.flip y x
    cases p <;> cases q <;> simp [DataNode.less]
    all_goals omega
  have hpair : ∀ r : List DataNode, (r.Pairwise fun a b => b.less a = false) → ∀ g : Bool,
      ((r.filter (fun x => x.genesis == g)).map (·.id)).Pairwise (fun a b => bytesCompare a b ≤ 0) := by
    intro r hr g
    rw [List.pairwise_map]
    refine List.Pairwise.imp_of_mem ?_ (hr.filter _)
    intro a b ha hb h
    have ha := (List.mem_filter.1 ha).2
    have hb := (List.mem_filter.1 hb).2
    rw [beq_iff_eq] at ha hb
    rcases (less_iff a b).1 h with ⟨h1, h2⟩ | ⟨-, h⟩
    · rw [ha] at h1; rw [hb] at h2; rw [h1] at h2; cases h2
    · exact h
  have hsplit : ∀ r : List DataNode, (r.Pairwise fun a b => b.less a = false) →
      r = r.filter (·.genesis) ++ r.filter (!·.genesis) := by
    intro r
    induction r with
    | nil => intro _; rfl
    | cons d r ih =>
      intro h
      rw [List.pairwise_cons] at h
      by_cases hd : d.genesis = true
      · rw [List.filter_cons_of_pos hd, List.filter_cons_of_neg (by simp [hd]), List.cons_append, ← ih h.2]
      · have hall : ∀ x ∈ r, x.genesis = false := by
          intro x hx
          rcases (less_iff d x).1 (h.1 x hx) with ⟨h1, -⟩ | ⟨h1, -⟩
          · exact absurd h1 hd
          · rw [← h1]; simpa using hd
        have e1 : (d :: r).filter (·.genesis) = [] := by
          rw [List.filter_eq_nil_iff]
          intro x hx
          rcases List.mem_cons.1 hx with rfl | hx
          · exact hd
          · simp [hall x hx]
        have e2 : (d :: r).filter (!·.genesis) = d :: r := by
          rw [List.filter_eq_self]
          intro x hx
          rcases List.mem_cons.1 hx with rfl | hx
          · simpa using hd
          · simp [hall x hx]
        rw [e1, e2, List.nil_append]
  refine ⟨hsplit r hs, ?_, ?_, ?_⟩
  · simpa using hpair r hs true
  · simpa using hpair r hs false
  · intro r' hp' hs'
    refine List.Perm.eq_of_pairwise (le := fun a b : DataNode => b.less a = false) ?_ hs' hs (hp'.trans hp.symm)
    intro a b _ _ h1 h2
    rcases (less_iff a b).1 h1 with ⟨x1, x2⟩ | ⟨x1, x2⟩ <;> rcases (less_iff b a).1 h2 with ⟨y1, y2⟩ | ⟨y1, y2⟩
    · rw [x1] at y2; cases y2
    · rw [x1, x2] at y1; cases y1
    · rw [y1, y2] at x1; cases x1
    · have := B.le_antisymm x2 y2
      obtain ⟨x, p⟩ := a
      obtain ⟨y, q⟩ := b
      simp only at this x1
      rw [this, x1]

/-- **C138, clones of seeds** are the same seed. -/
theorem C138_seed_clone (s : Option Bytes) (h : ∀ x, s = some x → x.length = 32) : seedClone s = s := by
  cases s with
  | none => rfl
  | some x =>
    have hx := h x rfl
    rw [seedClone, ByteOps.C52_setBytes 32 _ _ (by simp), hx]
    simp

/-- **C138, nets.**  A net has an address if a non-empty one was given for it, and it is that one; the net for consensus alternates. -/
theorem C138_nets (basic con1 con2 data1 data2 : Bytes) (e : UInt64) (h : e ≠ nilU64) :
    (∀ (n : UInt8) (a : Bytes), netAddr basic con1 con2 data1 data2 n = some a ↔ a ≠ [] ∧ [basic, con1, con2, data1, data2][n.toNat]? = some a) ∧
    conNet e ≠ conNet (e + 1) ∧ (conNet e = 1 ∨ conNet e = 2) := by
  refine ⟨?_, ?_, ?_⟩
  · intro n a
    have hn : n = 0 ∨ n = 1 ∨ n = 2 ∨ n = 3 ∨ n = 4 ∨ 5 ≤ n.toNat := by
      simp only [← UInt8.toNat_inj]
      have : (0 : UInt8).toNat = 0 := rfl
      have : (1 : UInt8).toNat = 1 := rfl
      have : (2 : UInt8).toNat = 2 := rfl
      have : (3 : UInt8).toNat = 3 := rfl
      have : (4 : UInt8).toNat = 4 := rfl
      omega
    have hb : ∀ (k : UInt8) (s : Bytes), (if s.length > 0 then [(k, s)] else []).find? (fun p : UInt8 × Bytes => p.1 == n) =
        if k = n ∧ s ≠ [] then some (k, s) else none := by
      intro k s
      cases s with
      | nil => simp
      | cons c s =>
        by_cases hk : k = n <;> simp [hk]
    simp only [netAddr, List.find?_append, hb]
    rcases hn with rfl | rfl | rfl | rfl | rfl | hn
    · by_cases h0 : basic = [] <;> by_cases h1 : a = [] <;> simp_all
    · by_cases h0 : con1 = [] <;> by_cases h1 : a = [] <;> simp_all
    · by_cases h0 : con2 = [] <;> by_cases h1 : a = [] <;> simp_all
    · by_cases h0 : data1 = [] <;> by_cases h1 : a = [] <;> simp_all
    · by_cases h0 : data2 = [] <;> by_cases h1 : a = [] <;> simp_all
    · have hk : ∀ k : UInt8, k.toNat < 5 → k ≠ n := by rintro k hk rfl; omega
      rw [List.getElem?_eq_none (by simpa using hn)]
      simp [hk 0 (by decide), hk 1 (by decide), hk 2 (by decide), hk 3 (by decide), hk 4 (by decide)]
  · have e2 : ∀ x : UInt64, x % 2 = 0 ↔ x.toNat % 2 = 0 := by
      intro x; rw [← UInt64.toNat_inj, UInt64.toNat_mod]; rfl
    have h1 : e.toNat ≠ 2 ^ 64 - 1 := fun hh => h (UInt64.toNat_inj.1 hh)
    have hlt := e.toNat_lt
    have ha : (e + 1).toNat = e.toNat + 1 := by
      rw [UInt64.toNat_add]
      have : (1 : UInt64).toNat = 1 := rfl
      omega
    unfold conNet
    simp only [e2, ha]
    split_ifs
    · omega
    · decide
    · decide
    · omega
  · unfold conNet; split <;> simp

example : numText (some 12) = [49, 50] ∧ numText (some nilU64) = nilText ∧ numText none = [] := by decide +kernel
example : chainsText (some [1, nilChainID, 10]) = [91, 49, 32, 60, 110, 105, 108, 62, 32, 49, 48, 93] := by decide +kernel
example : heightOf (some (2 ^ 64)) = (nilU64, false) ∧ heightOf (some 7) = (7, true) ∧ chainOf (some (2 ^ 32 - 1)) = (4294967295, true) := by
  decide +kernel
example : ([⟨[2], true⟩, ⟨[3], true⟩, ⟨[1], false⟩] : List DataNode).Pairwise fun a b => b.less a = false := by decide
example : netAddr [1] [] [2] [] [] 2 = some [2] ∧ netAddr [1] [] [2] [] [] 1 = none ∧ conNet 4 = 1 ∧ conNet 5 = 2 := by decide +kernel
example : electionName 4 = managedName ∧ electionOf managedName = some 4 := by decide

end Verif.Small
