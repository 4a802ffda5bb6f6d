import Verif.Trie.Json
import Verif.ByteOps.Props
import Verif.Num.Printing
import Verif.Hex.Print
import Verif.Merkle.Lemmas
import Verif.BigMath.Props

/-!
# Property C171: the texts of Merkle proofs

`MerkleProofs.Summary`, `String` and `InfoString` (`/repo/hash.go:628-699`), which logs show.  `Paths` is not nil and not negative
(a nil one panics in all three but `Summary`).
-/

namespace Verif.Merkle.Texts
open Verif Verif.Hex Verif.Merkle
open Verif.Trie.Json (ascii cut decDigits_inj)

/-! ### The model -/

/-- `(*math.BigInt)(x).HexString()` of a number that is not negative (`/repo/math/big.go:650-659`). -/
def hexS (n : Nat) : Bytes :=
  match Print.hexString (some (n : Int)) with
  | .ok t => t
  | _ => []

/-- `MerkleProofs.Summary` (`/repo/hash.go:628-633`); `none` is the nil pointer. -/
def summary : Option Proofs → Bytes
  | none => ascii ['M', 'P', '<', 'n', 'i', 'l', '>']
  | some p => ascii ['M', 'P', '{', 'P', 'a', 't', 'h', ':'] ++ decDigits p.paths ++ ascii [' ', 'H', 'a', 's', 'h', 's', ':'] ++
      decDigits p.hashs.length ++ [125]

/-- The loop of `String` (`/repo/hash.go:643-654`), from index `i` of the stored hashes on. -/
def hashsText (paths : Nat) : Nat → List Bytes → Bytes
  | _, [] => []
  | i, h :: hs => (if i > 0 then [44] else []) ++ (if paths.testBit i = false then [45] else []) ++ hexEncode h ++
      (if paths.testBit i = true then [45] else []) ++ hashsText paths (i + 1) hs

/-- `MerkleProofs.String` (`/repo/hash.go:635-659`). -/
def string (p : Proofs) : Bytes :=
  ascii ['M', 'P', 'r', 'o', 'o', 'f', '{', '(', '0', 'x'] ++ hexS p.paths ++ [44] ++ decDigits p.paths ++ [41, 44] ++
    hashsText p.paths 0 p.hashs ++ [125]

/-- What the callback of `InfoString` writes for one stored hash (`/repo/hash.go:674-692`). -/
def infoLine (base : Bytes) (paths : Nat) (h : Bytes) (index start : Nat) (times : Int) : Res Bytes :=
  if times > 1 then
    match ByteOps.subBytes (natBytes paths) start times with
    | .ok sub =>
      .ok (10 :: base ++ [9] ++ decDigits index ++ ascii ['-', '(', 'F', ':'] ++ decDigits start ++ [45] ++
        decDigits (start + times - 1).toNat ++ ascii [')', ':', ' ', '(', '0', 'x'] ++
        hexS (beNat (sub.getD [])) ++ [41] ++ hexEncode h ++ [32, 43] ++ decDigits times.toNat)
    | .err => .err
    | .panic => .panic
  else
    .ok (10 :: base ++ [9] ++ decDigits index ++ ascii ['-', '(', 'F', ':'] ++ decDigits start ++ ascii [')', ':', ' ', '('] ++
      decDigits (if paths.testBit start then 1 else 0) ++ [41] ++ hexEncode h)

/-- `_hashsIterate` with that callback (`/repo/hash.go:362-391`): everything written until it ends or stops with an error, which
`InfoString` throws away (`/repo/hash.go:673`). -/
def infoLines (base : Bytes) (paths : Nat) : Nat → MoreTime → List MoreTime → Nat → List Bytes → Res Bytes
  | _, _, _, _, [] => .ok []
  | i, c, ms, start, h :: hs =>
    match advance i c ms with
    | none => .ok []
    | some (c', ms') =>
      match infoLine base paths h i start (if c'.index = i then c'.times + 1 else 1) with
      | .err => .ok []
      | .panic => .panic
      | .ok t =>
        match infoLines base paths (i + 1) c' ms' (start + (if c'.index = i then c'.times + 1 else 1).toNat) hs with
        | .ok r => .ok (t ++ r)
        | .err => .err
        | .panic => .panic

/-- `MerkleProofs.InfoString` (`/repo/hash.go:661-699`); `none` is the nil pointer. -/
def infoString (level : Int) : Option Proofs → Res Bytes
  | none => .ok (ascii ['M', 'e', 'r', 'k', 'l', 'e', 'P', 'r', 'o', 'o', 'f', 's', '<', 'n', 'i', 'l', '>'])
  | some p =>
    match infoLines (Printing.indentString level) p.paths 0 ⟨-1, 0⟩ p.repeats.list 0 p.hashs with
    | .ok ls => .ok (ascii ['M', 'e', 'r', 'k', 'l', 'e', 'P', 'r', 'o', 'o', 'f', 's', '{'] ++ 10 :: Printing.indentString level ++
        [9] ++ ascii ['P', 'a', 't', 'h', ':', ' ', '0', 'x'] ++ hexEncode (natBytes p.paths) ++ [32, 40] ++ decDigits p.paths ++ [41] ++
        ls ++ 10 :: Printing.indentString level ++ [125])
    | .err => .err
    | .panic => .panic

/-! ### Specification: what a text is to show -/

/-- A line of `InfoString`: the place of the stored hash, the places of the items it stands for, their orders, the hash.  The orders
of several items are one number, the order of the `j`-th of them is its bit `j`. -/
def Line (base : Bytes) (paths : Nat) (h : Bytes) (index start times : Nat) : Bytes :=
  10 :: base ++ [9] ++ decDigits index ++ ascii ['-', '(', 'F', ':'] ++ decDigits start ++
    (if times > 1 then [45] ++ decDigits (start + times - 1) ++ ascii [')', ':', ' ', '(', '0', 'x'] ++
        hexS (paths / 2 ^ start % 2 ^ times) ++ [41] ++ hexEncode h ++ [32, 43] ++ decDigits times
     else ascii [')', ':', ' ', '('] ++ decDigits (paths / 2 ^ start % 2) ++ [41] ++ hexEncode h)

/-- The lines of a list of groups: each hash with the number of items it stands for. -/
def Lines (base : Bytes) (paths : Nat) : Nat → Nat → List (Bytes × Nat) → Bytes
  | _, _, [] => []
  | i, start, (h, n) :: gs => Line base paths h i start n ++ Lines base paths (i + 1) (start + n) gs

/-- The groups of a proof: its stored hashes with the number of items each stands for. -/
def Groups (p : Proofs) (gs : List (Bytes × Nat)) : Prop := hashsIterate 0 ⟨-1, 0⟩ p.repeats.list p.hashs = some gs

/-- The number of items. -/
def total (gs : List (Bytes × Nat)) : Nat := (gs.map Prod.snd).sum

/-! ### Characters -/

theorem hexChars (b : Bytes) : ∀ c ∈ hexEncode b, c ≠ 44 ∧ c ≠ 45 ∧ c ≠ 41 ∧ c ≠ 32 ∧ c ≠ 125 := by
  intro c hc
  obtain ⟨x, -, h⟩ := List.mem_flatMap.1 hc
  have : ∀ n < 16, hexChar n ≠ 44 ∧ hexChar n ≠ 45 ∧ hexChar n ≠ 41 ∧ hexChar n ≠ 32 ∧ hexChar n ≠ 125 := by decide
  have hx := UInt8.toNat_lt x
  rcases List.mem_cons.1 h with rfl | h
  · exact this _ (by omega)
  · rw [List.mem_singleton.1 h]; exact this _ (by omega)

theorem decChars (n : Nat) : ∀ c ∈ decDigits n, c ≠ 44 ∧ c ≠ 45 ∧ c ≠ 41 ∧ c ≠ 32 ∧ c ≠ 125 := by
  obtain ⟨ds, -, hf, -⟩ := (decDigits_numeral n).1
  generalize decDigits n = s at hf
  induction hf with
  | nil => intro c hc; cases hc
  | cons h _ ih =>
    intro c hc
    rcases List.mem_cons.1 hc with rfl | hc
    · obtain ⟨h1, rfl⟩ := h
      rename_i d _ _ _
      have : ∀ d < 10, UInt8.ofNat (48 + d) ≠ 44 ∧ UInt8.ofNat (48 + d) ≠ 45 ∧ UInt8.ofNat (48 + d) ≠ 41 ∧
          UInt8.ofNat (48 + d) ≠ 32 ∧ UInt8.ofNat (48 + d) ≠ 125 := by decide
      exact this d h1
    · exact ih c hc

theorem hexS_eq (n : Nat) : hexS n = if natBytes n = [] then [48] else hexEncode (natBytes n) := by
  unfold hexS Print.hexString
  have hz : ¬ ((n : Int) < 0) := by omega
  by_cases h : natBytes n = []
  · simp [h]
  · simp only [Int.natAbs_natCast, if_neg h, if_neg hz]; rfl

theorem hexS_comma (n : Nat) : (44 : UInt8) ∉ hexS n := by
  rw [hexS_eq]
  split
  · decide
  · exact fun h => (hexChars _ _ h).1 rfl

theorem hexEncode_len (b : Bytes) : (hexEncode b).length = 2 * b.length := by
  induction b with
  | nil => rfl
  | cons x b ih => simp only [hexEncode, List.flatMap_cons, List.length_append] at ih ⊢; simp [ih]; omega

theorem hexEncode_inj {x y : Bytes} (h : hexEncode x = hexEncode y) : x = y := by
  rw [← (C54_fromHex x).2, ← (C54_fromHex y).2, h]

/-- Two hashes in front of something. -/
theorem hash_cut {a b x y : Bytes} (ha : a.length = 32) (hb : b.length = 32) (h : hexEncode a ++ x = hexEncode b ++ y) : a = b ∧ x = y := by
  have := List.append_inj h (by rw [hexEncode_len, hexEncode_len, ha, hb])
  exact ⟨hexEncode_inj this.1, this.2⟩

/-! ### `Summary` -/

/-- **C171, summaries.** The summary shows the path and how many hashes are stored, and no more than that. -/
theorem C171_summary (p q : Option Proofs) :
    summary p = summary q ↔ p.map (fun p => (p.paths, p.hashs.length)) = q.map fun p => (p.paths, p.hashs.length) := by
  cases p with
  | none =>
    cases q with
    | none => simp
    | some q => simp [summary, ascii]
  | some p =>
    cases q with
    | none => simp [summary, ascii]
    | some q =>
      simp only [Option.map_some, Option.some.injEq, Prod.mk.injEq]
      constructor
      · intro h
        simp only [summary, List.append_assoc] at h
        have h1 := List.append_cancel_left h
        have h2 := cut (x := 32) (fun m => (decChars _ _ m).2.2.2.1 rfl) (fun m => (decChars _ _ m).2.2.2.1 rfl) h1
        have h3 := (List.cons.inj (List.cons.inj (List.cons.inj (List.cons.inj (List.cons.inj (List.cons.inj h2.2).2).2).2).2).2).2
        exact ⟨decDigits_inj h2.1, decDigits_inj (List.append_cancel_right h3)⟩
      · rintro ⟨a, b⟩; simp [summary, a, b]

/-! ### `String` -/

theorem hashsText_inj (paths : Nat) : ∀ (a b : List Bytes) (i : Nat), (∀ h ∈ a, h.length = 32) → (∀ h ∈ b, h.length = 32) →
    hashsText paths i a ++ [125] = hashsText paths i b ++ [125] → a = b
  | [], [], _, _, _, _ => rfl
  | [], h :: b, i, _, hb, e => by
    exfalso
    have hl := congrArg List.length e
    simp only [hashsText, List.length_append, hexEncode_len, hb h (by simp), List.nil_append, List.length_cons, List.length_nil] at hl
    omega
  | h :: a, [], i, ha, _, e => by
    exfalso
    have hl := congrArg List.length e
    simp only [hashsText, List.length_append, hexEncode_len, ha h (by simp), List.nil_append, List.length_cons, List.length_nil] at hl
    omega
  | h :: a, g :: b, i, ha, hb, e => by
    simp only [hashsText, List.append_assoc] at e
    have h1 := hash_cut (ha h (by simp)) (hb g (by simp)) (List.append_cancel_left (List.append_cancel_left e))
    rw [h1.1, hashsText_inj paths a b (i + 1) (fun x hx => ha x (by simp [hx])) (fun x hx => hb x (by simp [hx]))
      (List.append_cancel_left h1.2)]

/-- **C171, strings.** The text of a proof shows its path and its stored hashes, and nothing else. -/
theorem C171_string (p q : Proofs) (hp : ∀ h ∈ p.hashs, h.length = 32) (hq : ∀ h ∈ q.hashs, h.length = 32) :
    string p = string q ↔ p.paths = q.paths ∧ p.hashs = q.hashs := by
  constructor
  · intro h
    simp only [string, List.append_assoc] at h
    have h1 := cut (x := 44) (hexS_comma _) (hexS_comma _) (List.append_cancel_left h)
    have h2 := cut (x := 41) (fun m => (decChars _ _ m).2.2.1 rfl) (fun m => (decChars _ _ m).2.2.1 rfl) h1.2
    have hpp := decDigits_inj h2.1
    have h3 := (List.cons.inj h2.2).2
    rw [hpp] at h3
    exact ⟨hpp, hashsText_inj _ _ _ 0 hp hq h3⟩
  · rintro ⟨a, b⟩; simp [string, a, b]

/-- The text of an item: the dash is where the hash computed so far stands. -/
def ItemText (it : Bytes × Bool) : Bytes := if it.2 then hexEncode it.1 ++ [45] else 45 :: hexEncode it.1

/-- Texts separated by commas. -/
def Commas : List Bytes → Bytes
  | [] => []
  | [a] => a
  | a :: b :: l => a ++ 44 :: Commas (b :: l)

theorem hashsText_spec (paths : Nat) : ∀ (hs : List Bytes) (i : Nat),
    hashsText paths i hs = (if i > 0 ∧ hs ≠ [] then [44] else []) ++ Commas ((hs.mapIdx fun j h => (h, paths.testBit (i + j))).map ItemText)
  | [], i => by simp [hashsText, Commas]
  | h :: hs, i => by
    rw [hashsText, hashsText_spec paths hs (i + 1)]
    have e : (fun j h => (h, paths.testBit (i + (j + 1)))) = fun j (h : Bytes) => (h, paths.testBit (i + 1 + j)) := by
      funext j h; rw [Nat.add_assoc, Nat.add_comm 1 j]
    rw [List.mapIdx_cons, e]
    have hd : (if paths.testBit i = false then [45] else []) ++ hexEncode h ++ (if paths.testBit i = true then [45] else []) =
        ItemText (h, paths.testBit i) := by
      unfold ItemText
      cases paths.testBit i <;> simp
    cases hs with
    | nil =>
      simp only [List.append_assoc] at hd ⊢
      simp [Commas, ← hd]
    | cons g hs =>
      rw [List.mapIdx_cons]
      simp only [List.map_cons, Commas, Nat.add_zero]
      rw [← hd]
      simp

theorem advance_nil (i : Int) (c : MoreTime) : advance i c [] = some (c, []) := rfl

theorem iterate_plain : ∀ (hs : List Bytes) (i : Int) (c : MoreTime), c.index < i →
    hashsIterate i c [] hs = some (hs.map fun h => (h, 1))
  | [], _, _, _ => rfl
  | h :: hs, i, c, hc => by
    rw [hashsIterate]
    simp only [advance_nil]
    rw [iterate_plain hs (i + 1) c (by omega)]
    simp only [if_neg (show ¬ c.index = i by omega), List.map_cons]

theorem expand_plain (p : Proofs) : ∀ (hs : List Bytes) (k : Nat),
    expand p k (hs.map fun h => (h, 1)) = hs.mapIdx fun j h => (h, p.order (k + j))
  | [], _ => rfl
  | h :: hs, k => by
    have e : (fun j h => (h, p.order (k + (j + 1)))) = fun j (h : Bytes) => (h, p.order (k + 1 + j)) := by
      funext j h; rw [Nat.add_assoc, Nat.add_comm 1 j]
    rw [List.mapIdx_cons, e, ← expand_plain p hs (k + 1)]
    simp [expand]

/-- **C171, orders in strings.** Without repeats the text shows the items of the proof: each hash with the dash on the side of the
hash computed so far. -/
theorem C171_string_items (p : Proofs) (hr : p.repeats.list = []) :
    ∃ its, p.items = some its ∧
      string p = ascii ['M', 'P', 'r', 'o', 'o', 'f', '{', '(', '0', 'x'] ++ hexS p.paths ++ [44] ++ decDigits p.paths ++ [41, 44] ++
        Commas (its.map ItemText) ++ [125] := by
  refine ⟨p.hashs.mapIdx fun j h => (h, p.order (0 + j)), ?_, ?_⟩
  · rw [Proofs.items, hr, iterate_plain _ _ _ (by decide), Option.map_some, expand_plain]
  · rw [string, hashsText_spec]; simp [Proofs.order]

/-! ### `InfoString` -/

theorem sub_value (paths start times : Nat) (hlen : (natBytes paths).length < 2 ^ 48) (ht : 1 ≤ times) (hov : start + times < 2 ^ 62) :
    ∃ sub, ByteOps.subBytes (natBytes paths) start times = .ok sub ∧ beNat (sub.getD []) = paths / 2 ^ start % 2 ^ times := by
  have hlt := beNat_lt (natBytes paths)
  rw [beNat_natBytes, show (256 : Nat) = 2 ^ 8 from rfl, ← Nat.pow_mul] at hlt
  have := ByteOps.C50_subBytes (natBytes paths) hlen (start : Int) (times : Int) (by omega)
  rw [if_neg (by omega)] at this
  by_cases hs : (start : Int) ≥ 8 * (natBytes paths).length
  · rw [if_pos hs] at this
    refine ⟨none, this, ?_⟩
    have hz : paths / 2 ^ start = 0 := Nat.div_eq_of_lt (lt_of_lt_of_le hlt (Nat.pow_le_pow_right (by omega) (by omega)))
    rw [hz]; simp [beNat]
  · rw [if_neg hs] at this
    refine ⟨_, this, ?_⟩
    simp only [Option.getD_some, Int.toNat_natCast, beNat_natBytes]
    generalize hsz : min times (8 * (natBytes paths).length - start) = sz
    have hm : paths / 2 ^ start % 2 ^ sz = paths / 2 ^ start % 2 ^ times := by
      rcases Nat.le_total times (8 * (natBytes paths).length - start) with hle | hle
      · rw [← hsz, Nat.min_eq_left hle]
      · have hb : paths / 2 ^ start < 2 ^ (8 * (natBytes paths).length - start) := by
          rw [Nat.div_lt_iff_lt_mul (Nat.two_pow_pos _), ← Nat.pow_add]
          rwa [show 8 * (natBytes paths).length - start + start = 8 * (natBytes paths).length by omega]
        rw [Nat.min_eq_right hle] at hsz
        rw [← hsz, Nat.mod_eq_of_lt hb, Nat.mod_eq_of_lt (lt_of_lt_of_le hb (Nat.pow_le_pow_right (by omega) hle))]
    rw [beNat_natBE_of_lt, hm]
    rw [show (256 : Nat) = 2 ^ 8 from rfl, ← Nat.pow_mul]
    exact lt_of_lt_of_le (Nat.mod_lt _ (Nat.two_pow_pos _)) (Nat.pow_le_pow_right (by omega) (by omega))

theorem line_spec (base : Bytes) (paths : Nat) (h : Bytes) (index start times : Nat) (hlen : (natBytes paths).length < 2 ^ 48)
    (hov : start + times < 2 ^ 62) : infoLine base paths h index start (times : Int) = .ok (Line base paths h index start times) := by
  unfold infoLine Line
  by_cases ht : times > 1
  · obtain ⟨sub, h1, h2⟩ := sub_value paths start times hlen (by omega) hov
    have e : ((start : Int) + times - 1).toNat = start + times - 1 := by omega
    rw [if_pos (by omega), if_pos ht, h1]
    simp only [h2, e, Int.toNat_natCast, List.append_assoc]
  · rw [if_neg (by omega), if_neg ht]
    have hb : (if paths.testBit start then 1 else 0) = paths / 2 ^ start % 2 := by
      rw [Nat.testBit_eq_decide_div_mod_eq]
      have := Nat.mod_two_eq_zero_or_one (paths / 2 ^ start)
      rcases this with e | e <;> simp [e]
    rw [hb]
    simp only [List.append_assoc]

theorem advance_times (i : Int) : ∀ (ms : List MoreTime) (c c' : MoreTime) (ms' : List MoreTime), 0 ≤ c.times → advance i c ms = some (c', ms') →
    0 ≤ c'.times
  | [], c, c', ms', h, e => by simp only [advance, Option.some.injEq, Prod.mk.injEq] at e; rw [← e.1]; exact h
  | m :: ms, c, c', ms', h, e => by
    rw [advance] at e
    split at e
    · split at e
      · rename_i hv
        simp only [MoreTime.valid, Bool.and_eq_true, decide_eq_true_eq] at hv
        exact advance_times i ms m c' ms' (by omega) e
      · cases e
    · simp only [Option.some.injEq, Prod.mk.injEq] at e; rw [← e.1]; exact h

theorem lines_spec (base : Bytes) (paths : Nat) (hlen : (natBytes paths).length < 2 ^ 48) :
    ∀ (hs : List Bytes) (i : Nat) (c : MoreTime) (ms : List MoreTime) (start : Nat) (gs : List (Bytes × Nat)), 0 ≤ c.times →
      hashsIterate i c ms hs = some gs → start + total gs < 2 ^ 62 → infoLines base paths i c ms start hs = .ok (Lines base paths i start gs)
  | [], i, c, ms, start, gs, _, h, _ => by
    simp only [hashsIterate, Option.some.injEq] at h
    rw [← h]; rfl
  | a :: hs, i, c, ms, start, gs, hc, h, ht => by
    rw [hashsIterate] at h
    rw [infoLines]
    cases ha : advance i c ms with
    | none => rw [ha] at h; cases h
    | some r =>
      obtain ⟨c', ms'⟩ := r
      rw [ha] at h
      have hc' := advance_times i ms c c' ms' hc ha
      simp only at h ⊢
      cases hr : hashsIterate ((i : Int) + 1) c' ms' hs with
      | none => rw [hr] at h; cases h
      | some rest =>
        rw [hr] at h
        simp only [Option.some.injEq] at h
        subst h
        simp only [total, List.map_cons, List.sum_cons] at ht
        generalize hn : (if c'.index = (i : Int) then (c'.times + 1).toNat else 1) = n at ht
        have hn' : (if c'.index = (i : Int) then c'.times + 1 else 1) = (n : Int) := by
          split at hn <;> rename_i hh
          · rw [if_pos hh]; omega
          · rw [if_neg hh]; omega
        rw [hn', line_spec base paths a i start n hlen (by omega)]
        simp only [Int.toNat_natCast]
        rw [lines_spec base paths hlen hs (i + 1) c' ms' (start + n) rest hc' (by exact_mod_cast hr) (by simp only [total]; omega)]
        rfl

/-- **C171, what `InfoString` writes.** For a proof whose table is in order: the path, then for each stored hash one line with its
place, the places of the items it stands for and their orders. -/
theorem C171_info (level : Int) (p : Proofs) (gs : List (Bytes × Nat)) (hg : Groups p gs) (hlen : (natBytes p.paths).length < 2 ^ 48)
    (ht : total gs < 2 ^ 62) :
    infoString level (some p) = .ok (ascii ['M', 'e', 'r', 'k', 'l', 'e', 'P', 'r', 'o', 'o', 'f', 's', '{'] ++
      10 :: Printing.indentString level ++ [9] ++ ascii ['P', 'a', 't', 'h', ':', ' ', '0', 'x'] ++ hexEncode (natBytes p.paths) ++ [32, 40] ++
      decDigits p.paths ++ [41] ++ Lines (Printing.indentString level) p.paths 0 0 gs ++ 10 :: Printing.indentString level ++ [125]) := by
  rw [infoString, lines_spec _ _ hlen _ 0 ⟨-1, 0⟩ _ 0 gs (by decide) (by exact_mod_cast hg) (by omega)]

/-- Bit `j` of the number of orders of a group is the order of its `j`-th item. -/
theorem C171_orders (p : Proofs) (start times j : Nat) (hj : j < times) :
    (p.paths / 2 ^ start % 2 ^ times).testBit j = p.order (start + j) := by
  rw [Nat.testBit_mod_two_pow, Nat.testBit_div_two_pow, Proofs.order, Nat.add_comm j start]
  simp [hj]

theorem lines_inj (base : Bytes) (paths : Nat) : ∀ (a b : List (Bytes × Nat)) (i start : Nat), (∀ g ∈ a, g.1.length = 32 ∧ 0 < g.2) →
    (∀ g ∈ b, g.1.length = 32 ∧ 0 < g.2) →
    Lines base paths i start a ++ 10 :: (base ++ [125]) = Lines base paths i start b ++ 10 :: (base ++ [125]) → a = b
  | [], [], _, _, _, _, _ => rfl
  | [], (h, n) :: b, i, start, _, _, e => by
    exfalso
    simp only [Lines, Line, List.nil_append, List.append_assoc, List.cons_append, List.cons.injEq, true_and] at e
    have := List.append_cancel_left e
    simp at this
  | (h, n) :: a, [], i, start, _, _, e => by
    exfalso
    simp only [Lines, Line, List.nil_append, List.append_assoc, List.cons_append, List.cons.injEq, true_and] at e
    have := List.append_cancel_left e
    simp at this
  | (h, n) :: a, (g, m) :: b, i, start, ha, hb, e => by
    obtain ⟨hh, hn⟩ := ha (h, n) (by simp)
    obtain ⟨hg, hm⟩ := hb (g, m) (by simp)
    simp only at hh hn hg hm
    simp only [Lines, Line, List.append_assoc, List.cons_append, List.nil_append, List.cons.injEq, true_and] at e
    have e1 := List.append_cancel_left (List.append_cancel_left (List.append_cancel_left (List.cons.inj (List.append_cancel_left e)).2))
    have key : h = g ∧ n = m ∧ Lines base paths (i + 1) (start + n) a ++ 10 :: (base ++ [125]) =
        Lines base paths (i + 1) (start + m) b ++ 10 :: (base ++ [125]) := by
      by_cases h1 : n > 1 <;> by_cases h2 : m > 1
      · rw [if_pos h1, if_pos h2] at e1
        simp only [List.append_assoc, List.cons_append, List.nil_append] at e1
        have e2 := cut (x := 41) (fun m => (decChars _ _ m).2.2.1 rfl) (fun m => (decChars _ _ m).2.2.1 rfl) (List.cons.inj e1).2
        have hnm : n = m := by have := decDigits_inj e2.1; omega
        subst hnm
        have e3 := (List.append_cancel_left (as := ascii [':', ' ', '(', '0', 'x']) e2.2)
        have e4 := hash_cut hh hg (List.cons.inj (List.append_cancel_left e3)).2
        exact ⟨e4.1, rfl, List.append_cancel_left (List.append_cancel_left (as := [32, 43]) e4.2)⟩
      · rw [if_pos h1, if_neg h2] at e1
        exact absurd (List.cons.inj e1).1 (by decide)
      · rw [if_neg h1, if_pos h2] at e1
        exact absurd (List.cons.inj e1).1 (by decide)
      · rw [if_neg h1, if_neg h2] at e1
        simp only [List.append_assoc, List.cons_append, List.nil_append] at e1
        have hnm : n = m := by omega
        subst hnm
        have e4 := hash_cut hh hg (List.cons.inj (List.append_cancel_left (List.append_cancel_left e1))).2
        exact ⟨e4.1, rfl, e4.2⟩
    obtain ⟨rfl, rfl, e5⟩ := key
    rw [lines_inj base paths a b (i + 1) (start + n) (fun x hx => ha x (by simp [hx])) (fun x hx => hb x (by simp [hx])) e5]

theorem groups_of : ∀ (hs : List Bytes) (i : Int) (c : MoreTime) (ms : List MoreTime) (gs : List (Bytes × Nat)), 0 ≤ c.times →
    hashsIterate i c ms hs = some gs → gs.map Prod.fst = hs ∧ ∀ g ∈ gs, 0 < g.2
  | [], i, c, ms, gs, _, h => by
    simp only [hashsIterate, Option.some.injEq] at h
    subst h; simp
  | a :: hs, i, c, ms, gs, hc, h => by
    rw [hashsIterate] at h
    cases ha : advance i c ms with
    | none => rw [ha] at h; cases h
    | some r =>
      obtain ⟨c', ms'⟩ := r
      rw [ha] at h
      have hc' := advance_times i ms c c' ms' hc ha
      simp only at h
      cases hr : hashsIterate (i + 1) c' ms' hs with
      | none => rw [hr] at h; cases h
      | some rest =>
        rw [hr] at h
        simp only [Option.some.injEq] at h
        subst h
        obtain ⟨i1, i2⟩ := groups_of hs (i + 1) c' ms' rest hc' hr
        refine ⟨by simp [i1], ?_⟩
        intro g hg
        rcases List.mem_cons.1 hg with rfl | hg
        · simp only; split <;> omega
        · exact i2 g hg

/-- **C171, what `InfoString` determines.** Two proofs whose tables are in order have the same text exactly when they have the same
path and the same groups; then they have the same items and give the same result for every hash. -/
theorem C171_info_iff (level : Int) (p q : Proofs) (gs fs : List (Bytes × Nat)) (hp : Groups p gs) (hq : Groups q fs)
    (hp32 : ∀ h ∈ p.hashs, h.length = 32) (hq32 : ∀ h ∈ q.hashs, h.length = 32)
    (hlp : (natBytes p.paths).length < 2 ^ 48) (hlq : (natBytes q.paths).length < 2 ^ 48) (htp : total gs < 2 ^ 62) (htq : total fs < 2 ^ 62) :
    (infoString level (some p) = infoString level (some q) ↔ p.paths = q.paths ∧ gs = fs) ∧
    (infoString level (some p) = infoString level (some q) → p.items = q.items ∧ ∀ H h, p.proof H h = q.proof H h) := by
  have hiff : infoString level (some p) = infoString level (some q) ↔ p.paths = q.paths ∧ gs = fs := by
    rw [C171_info level p gs hp hlp htp, C171_info level q fs hq hlq htq]
    constructor
    · intro e
      simp only [Res.ok.injEq, List.append_assoc, List.cons_append, List.nil_append] at e
      have e1 := (List.cons.inj (List.append_cancel_left (List.cons.inj (List.append_cancel_left e)).2)).2
      have e2 := cut (x := 32) (fun m => (hexChars _ _ m).2.2.2.1 rfl) (fun m => (hexChars _ _ m).2.2.2.1 rfl) (List.append_cancel_left e1)
      have e3 := cut (x := 41) (fun m => (decChars _ _ m).2.2.1 rfl) (fun m => (decChars _ _ m).2.2.1 rfl) (List.cons.inj e2.2).2
      have hpq := decDigits_inj e3.1
      have e4 := e3.2
      rw [hpq] at e4
      obtain ⟨g1, g2⟩ := groups_of _ _ _ _ _ (by decide) hp
      obtain ⟨f1, f2⟩ := groups_of _ _ _ _ _ (by decide) hq
      refine ⟨hpq, lines_inj _ _ gs fs 0 0 (fun g hg => ⟨hp32 _ ?_, g2 g hg⟩) (fun g hg => ⟨hq32 _ ?_, f2 g hg⟩) e4⟩
      · rw [← g1]; exact List.mem_map_of_mem hg
      · rw [← f1]; exact List.mem_map_of_mem hg
    · rintro ⟨a, b⟩; rw [a, b]
  refine ⟨hiff, fun e => ?_⟩
  obtain ⟨h1, h2⟩ := hiff.1 e
  have hi : p.items = q.items := by
    unfold Groups at hp hq
    have ho : ∀ (gs : List (Bytes × Nat)) k, expand p k gs = expand q k gs := by
      intro gs
      induction gs with
      | nil => intro k; rfl
      | cons g gs ih => intro k; obtain ⟨h, n⟩ := g; simp only [expand, ih, Proofs.order, h1]
    rw [Proofs.items, Proofs.items, hp, hq, h2, Option.map_some, Option.map_some, ho]
  exact ⟨hi, fun H h => by rw [Proofs.proof, Proofs.proof, hi]⟩

/-- A proof made of items in order. -/
def build (L : List (Bytes × Bool)) : Proofs := L.foldl (fun p x => p.append x.1 x.2) newProofs

theorem rep_build (L : List (Bytes × Bool)) : Rep (build L) L := by
  have gen : ∀ (L M : List (Bytes × Bool)) (p : Proofs), Rep p M → Rep (L.foldl (fun p x => p.append x.1 x.2) p) (M ++ L) := by
    intro L
    induction L with
    | nil => intro M p h; simpa using h
    | cons x L ih =>
      intro M p h
      have := ih (M ++ [x]) (p.append x.1 x.2) (h.append x.1 x.2)
      simpa using this
  have := gen L [] newProofs Rep.new
  rw [List.nil_append] at this
  exact this

theorem total_runs (R : Runs) : total (R.map fun r => (r.1, r.2 + 1)) = (spell R).length := by
  induction R with
  | nil => rfl
  | cons r R ih =>
    obtain ⟨h, e⟩ := r
    simp only [total, List.map_cons, List.sum_cons, spell, List.length_append, List.length_replicate] at ih ⊢
    omega

theorem groups_build (L : List (Bytes × Bool)) : ∃ gs, Groups (build L) gs ∧ total gs = L.length := by
  obtain ⟨R, h1, h2, _, h4⟩ := (rep_build L).runs
  have := hashsIterate_runs R 0 ⟨-1, 0⟩ (repsOf 0 R) (Or.inl ⟨by simp, rfl⟩)
  refine ⟨_, by unfold Groups; rw [h1, h2]; exact this, ?_⟩
  rw [total_runs, h4]; simp

theorem paths_build (L : List (Bytes × Bool)) : (natBytes (build L).paths).length ≤ L.length := by
  refine BigMath.natBytes_len_le _ _ (lt_of_lt_of_le (Nat.lt_pow_two_of_testBit _ (n := L.length) fun i hi => ?_) ?_)
  · rw [(rep_build L).paths, List.getElem?_eq_none hi]; rfl
  · exact Nat.pow_le_pow_left (by omega) _

theorem hashs_build (L : List (Bytes × Bool)) (hL : ∀ x ∈ L, x.1.length = 32) : ∀ h ∈ (build L).hashs, h.length = 32 := by
  obtain ⟨R, h1, _, _, h4⟩ := (rep_build L).runs
  intro h hh
  rw [h1] at hh
  obtain ⟨r, hr, rfl⟩ := List.mem_map.1 hh
  have hs : ∀ (R : Runs) r, r ∈ R → r.1 ∈ spell R := by
    intro R
    induction R with
    | nil => intro r hr; cases hr
    | cons a R ih =>
      intro r hr
      obtain ⟨x, e⟩ := a
      rcases List.mem_cons.1 hr with rfl | hr
      · simp [spell]
      · simp [spell, ih r hr]
  have := hs R r hr
  rw [h4] at this
  obtain ⟨x, hx, e⟩ := List.mem_map.1 this
  rw [← e]; exact hL x hx

/-- **C171, `InfoString` of proofs that the code makes.** Of two proofs made by appending items the texts are the same exactly when
the items are. -/
theorem C171_info_items (level : Int) (L M : List (Bytes × Bool)) (hL : ∀ x ∈ L, x.1.length = 32) (hM : ∀ x ∈ M, x.1.length = 32)
    (hlL : L.length < 2 ^ 48) (hlM : M.length < 2 ^ 48) :
    infoString level (some (build L)) = infoString level (some (build M)) ↔ L = M := by
  constructor
  · intro h
    obtain ⟨gs, g1, g2⟩ := groups_build L
    obtain ⟨fs, f1, f2⟩ := groups_build M
    have := (C171_info_iff level (build L) (build M) gs fs g1 f1 (hashs_build L hL) (hashs_build M hM)
      (lt_of_le_of_lt (paths_build L) hlL) (lt_of_le_of_lt (paths_build M) hlM) (by omega) (by omega)).2 h
    rw [(rep_build L).items, (rep_build M).items] at this
    exact Option.some.inj this.1
  · rintro rfl; rfl

/-! ### Where the texts say less or something else -/

/-- A hash of 32 equal bytes. -/
def fill (b : UInt8) : Bytes := List.replicate 32 b

/-- **C171, refuted.** The dashes of `String` are the orders of the first items, not of the stored hashes: of a proof whose first
hash is used twice, with orders false and true, and whose second hash has order false, the text shows the second hash with order
true.  It is the text of another proof, one with two items, and the two give different results. -/
theorem C171_string_refuted :
    let p := ((newProofs.append (fill 1) false).append (fill 1) true).append (fill 2) false
    let q := (newProofs.append (fill 1) false).append (fill 2) true
    string p = string q ∧ p.items = some [(fill 1, false), (fill 1, true), (fill 2, false)] ∧
      q.items = some [(fill 1, false), (fill 2, true)] ∧ infoString 0 (some p) ≠ infoString 0 (some q) := by
  decide +kernel

/-- **C171, refuted.** `InfoString` drops the error of a table that is out of order: a proof that proves nothing is shown like one
without hashes. -/
theorem C171_info_refuted :
    let p : Proofs := ⟨[fill 1, fill 2], 0, some [⟨0, 0⟩]⟩
    p.items = none ∧ infoString 3 (some p) = infoString 3 (some newProofs) := by
  decide +kernel

/-- **C171, refuted.** Summaries of different proofs are the same. -/
theorem C171_summary_refuted :
    let p := newProofs.append (fill 1) false
    let q := newProofs.append (fill 2) false
    p.items ≠ q.items ∧ summary (some p) = summary (some q) := by
  decide +kernel

/-! ### Examples -/

example : string ((newProofs.append (fill 1) false).append (fill 2) true) =
    ascii "MProof{(0x02,2),-0101010101010101010101010101010101010101010101010101010101010101,0202020202020202020202020202020202020202020202020202020202020202-}".toList := by
  decide +kernel

example : infoString 1 (some (((newProofs.append (fill 1) false).append (fill 1) true).append (fill 2) false)) =
    .ok (ascii "MerkleProofs{\n\t\tPath: 0x02 (2)\n\t\t0-(F:0-1): (0x02)0101010101010101010101010101010101010101010101010101010101010101 +2\n\t\t1-(F:2): (0)0202020202020202020202020202020202020202020202020202020202020202\n\t}".toList) := by
  decide +kernel

example : summary (some (newProofs.append (fill 1) true)) = ascii "MP{Path:1 Hashs:1}".toList ∧ summary none = ascii "MP<nil>".toList := by
  decide +kernel

example : Groups (((newProofs.append (fill 1) false).append (fill 1) true).append (fill 2) false) [(fill 1, 2), (fill 2, 1)] ∧
    total [(fill 1, 2), (fill 2, 1)] = 3 := by
  unfold Groups; decide +kernel

/-- **C30.** The first element of a list of hashes stands first in the table of different hashes, whatever repeats are recorded, even wrong
ones read from elsewhere. -/
theorem C30_first (ms : MoreTimes) : ms.hashsIndex 0 = 0 ∧ ms.hashsIndex (-1) = -1 := by
  constructor <;> rw [MoreTimes.hashsIndex, if_pos (Or.inr (by decide))]

/-- A wrong table with a negative index, for which the loop would give another answer. -/
example : hashsIndexLoop 0 ⟨0, 0⟩ 0 [⟨-2, 5⟩] = -2 := by decide +kernel

end Verif.Merkle.Texts
