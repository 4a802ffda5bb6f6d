import Verif.Abi.Model
import Verif.Abi.Selector

/-!
# The texts of types

`NewType` reads the text of a type and the list of its components, as they stand in the JSON description of a contract.

Simplifications: `TupleRawName`, which only serves printing, is left out; texts are byte strings, and whether a name with bytes beyond
ASCII is a field name is asked from a parameter `U` (the tables of `unicode`).
-/

namespace Verif.Abi
open Verif
open Selector (AM isDigit isAlpha tupleText)

/-! ### Names of fields -/

/-- `strings.Split` at one byte. -/
def split (sep : UInt8) : Bytes → List Bytes
  | [] => [[]]
  | c :: r =>
    if c == sep then [] :: split sep r
    else
      match split sep r with
      | [] => [[c]]
      | p :: ps => (c :: p) :: ps

/-- `strings.ToUpper` of a string of one byte; a byte beyond ASCII is no character by itself and becomes U+FFFD. -/
def toUpper (c : UInt8) : Bytes :=
  if 97 ≤ c && c ≤ 122 then [c - 32] else if c < 128 then [c] else [0xEF, 0xBF, 0xBD]

/-- A part in `ToCamelCase`. -/
def capital : Bytes → Bytes
  | [] => []
  | c :: r => toUpper c ++ r

/-- `ToCamelCase` (`/repo/abi/argument.go:276-284`). -/
def toCamelCase (s : Bytes) : Bytes := ((split 95 s).map capital).flatten

/-- `isLetter` for ASCII (`/repo/abi/type.go:400-402`). -/
def isLetter (c : UInt8) : Bool := (97 ≤ c && c ≤ 122) || (65 ≤ c && c ≤ 90) || c == 95

/-- `isValidFieldName` (`/repo/abi/type.go:411-423`). -/
def isValidFieldName (U : Bytes → Bool) (s : Bytes) : Bool :=
  if s.all (· < 128) then
    match s with
    | [] => false
    | c :: r => isLetter c && r.all fun c => isLetter c || isDigit c
  else U s

/-! ### Types of Go -/

/-- Up to a multiple of the alignment. -/
def alignUp (n a : Nat) : Nat := (n + a - 1) / a * a

mutual
/-- Size and alignment of `GetType` (`/repo/abi/type.go:227-260`, `/repo/abi/reflect.go:61-86`); `none` if `reflect.ArrayOf` or
`reflect.StructOf` panics because the size does not fit in 64 bits. -/
def goType : Ty → Option (Nat × Nat)
  | .uint bits => if bits = 8 then some (1, 1) else if bits = 16 then some (2, 2) else if bits = 32 then some (4, 4) else some (8, 8)
  | .int bits => if bits = 8 then some (1, 1) else if bits = 16 then some (2, 2) else if bits = 32 then some (4, 4) else some (8, 8)
  | .bool => some (1, 1)
  | .string => some (16, 8)
  | .bytes => some (24, 8)
  | .address => some (20, 1)
  | .fixed n => if n ≥ 2 ^ 64 then none else some (n, 1)
  | .function => some (24, 1)
  | .slice e => (goType e).bind fun _ => some (24, 8)
  | .array n e => (goType e).bind fun p => if n * p.1 ≥ 2 ^ 64 then none else some (n * p.1, p.2)
  | .tuple l => structOf l 0 1 false
/-- `reflect.StructOf`: the size so far, the alignment so far, and whether the last field had no size. -/
def structOf : List Ty → Nat → Nat → Bool → Option (Nat × Nat)
  | [], size, al, lastZero =>
    let size := if lastZero && decide (0 < size) then size + 1 else size
    if alignUp size al ≥ 2 ^ 64 then none else some (alignUp size al, al)
  | t :: l, size, al, _ =>
    (goType t).bind fun p =>
      if alignUp size p.2 + p.1 ≥ 2 ^ 64 then none
      else structOf l (alignUp size p.2 + p.1) (max al p.2) (decide (p.1 = 0))
end

/-! ### Reading -/

/-- A `Type`: what it is, `stringKind`, and for a tuple `TupleRawNames` and the names of the fields of `TupleType`. -/
structure Info where
  ty : Ty
  kind : Bytes
  raw : List Bytes
  fields : List Bytes

/-- `strings.Count` of one byte. -/
def count (c : UInt8) (t : Bytes) : Nat := t.countP (· == c)

/-- `t[:i]` and `t[i:]` for the last index of a byte. -/
def cutLast (c : UInt8) : Bytes → Bytes × Bytes
  | [] => ([], [])
  | x :: r => if count c r ≠ 0 then (x :: (cutLast c r).1, (cutLast c r).2) else if x == c then ([], x :: r) else (x :: r, [])

/-- `FindAllString` for `[0-9]+`. -/
def digitRuns : Bytes → Bytes → List Bytes
  | [], acc => if acc.isEmpty then [] else [acc]
  | c :: r, acc =>
    if isDigit c then digitRuns r (acc ++ [c]) else if acc.isEmpty then digitRuns r [] else acc :: digitRuns r []

/-- `strconv.Atoi` of a string of digits. -/
def atoi (d : Bytes) : Res Nat := if ofDec d ≥ 2 ^ 63 then .err else .ok (ofDec d)

/-- The first match of `([a-zA-Z]+)(([0-9]+)(x([0-9]+))?)?` (`/repo/abi/type.go:62-64`): groups 1 and 3, and group 4. -/
def typeRegex (t : Bytes) : Option (Bytes × Bytes × Bytes) :=
  let s := t.dropWhile (! isAlpha ·)
  if s.isEmpty then none
  else
    let r := s.dropWhile isAlpha
    let q := r.dropWhile isDigit
    some (s.takeWhile isAlpha, r.takeWhile isDigit,
      if (r.takeWhile isDigit).isEmpty then []
      else
        match q with
        | 120 :: x => if (x.takeWhile isDigit).isEmpty then [] else 120 :: x.takeWhile isDigit
        | _ => [])

def intText : Bytes := [105, 110, 116]
def uintText : Bytes := [117, 105, 110, 116]
def boolText : Bytes := [98, 111, 111, 108]
def addressText : Bytes := [97, 100, 100, 114, 101, 115, 115]
def stringText : Bytes := [115, 116, 114, 105, 110, 103]
def bytesText : Bytes := [98, 121, 116, 101, 115]
def functionText : Bytes := [102, 117, 110, 99, 116, 105, 111, 110]

/-- `varSize` (`/repo/abi/type.go:116-130`). -/
def varSize (word digits x : Bytes) : Res Nat :=
  if digits.isEmpty then (if word = uintText ∨ word = intText then .err else .ok 0)
  else if x.isEmpty then atoi digits else .err

/-- The kinds of the components, separated by commas. -/
def joinComma : List Bytes → Bytes
  | [] => []
  | [k] => k
  | k :: l => k ++ 44 :: joinComma l

/-- The type of a tuple (`/repo/abi/type.go:189-194`). -/
def tupleInfo (l : List (Bytes × Bytes × Info)) : Res Info :=
  match goType (.tuple (l.map fun f => f.2.2.ty)) with
  | none => .panic
  | some _ =>
    .ok { ty := .tuple (l.map fun f => f.2.2.ty), kind := 40 :: joinComma (l.map fun f => f.2.2.kind) ++ [41],
          raw := l.map (·.1), fields := l.map (·.2.1) }

/-- The text without brackets (`/repo/abi/type.go:109-217`); `fields` is the outcome of the loop over the components. -/
def baseType (fields : Res (List (Bytes × Bytes × Info))) (t : Bytes) : Res Info :=
  match typeRegex t with
  | none => .err
  | some (word, digits, x) =>
    Res.bind (varSize word digits x) fun size =>
      if word = intText then .ok ⟨.int size, t, [], []⟩
      else if word = uintText then .ok ⟨.uint size, t, [], []⟩
      else if word = boolText then .ok ⟨.bool, t, [], []⟩
      else if word = addressText then .ok ⟨.address, t, [], []⟩
      else if word = stringText then .ok ⟨.string, t, [], []⟩
      else if word = bytesText then (if size = 0 then .ok ⟨.bytes, t, [], []⟩ else .ok ⟨.fixed size, t, [], []⟩)
      else if word = tupleText then Res.bind fields tupleInfo
      else if word = functionText then .ok ⟨.function, t, [], []⟩
      else .err

/-- The type with the last pair of brackets (`/repo/abi/type.go:85-107`). -/
def bracketType (emb : Info) (sliced : Bytes) : Res Info :=
  match digitRuns sliced [] with
  | [] => .ok ⟨.slice emb.ty, emb.kind ++ sliced, [], []⟩
  | [d] => Res.bind (atoi d) fun n => .ok ⟨.array n emb.ty, emb.kind ++ sliced, [], []⟩
  | _ => .err

/-- The recursion over brackets (`/repo/abi/type.go:68-109`); the number is that of the opening brackets. -/
def readType (base : Bytes → Res Info) : Nat → Bytes → Res Info
  | 0, t => if count 91 t ≠ count 93 t then .err else base t
  | n + 1, t =>
    if count 91 t ≠ count 93 t then .err
    else Res.bind (readType base n (cutLast 91 t).1) fun emb => bracketType emb (cutLast 91 t).2

mutual
/-- `NewType` (`/repo/abi/type.go:70-224`). -/
def newType (U : Bytes → Bool) : AM → Res Info
  | .mk _ typ comps => readType (baseType (newFields U comps [])) (count 91 typ) typ
/-- The loop over the components (`/repo/abi/type.go:160-187`): raw name, name of the field, type. -/
def newFields (U : Bytes → Bool) : List AM → List Bytes → Res (List (Bytes × Bytes × Info))
  | [], _ => .ok []
  | a :: l, used =>
    Res.bind (newType U a) fun c =>
      match a with
      | .mk name _ _ =>
        if toCamelCase name = [] then .err
        else
          match resolveName (used.length + 1) (toCamelCase name) (fun s => used.contains s) with
          | none => .err  -- does not happen (C79)
          | some fieldName =>
            if !isValidFieldName U fieldName then .err
            else
              match goType c.ty with
              | none => .panic
              | some _ => Res.bind (newFields U l (fieldName :: used)) fun r => .ok ((name, fieldName, c) :: r)
end

/-! ### Specification: types as they are declared -/

/-- Types of Solidity; the fields of a tuple have names. -/
inductive Sol where
  | uint (bits : Nat)
  | int (bits : Nat)
  | bool
  | string
  | bytes
  | address
  | fixed (n : Nat)
  | function
  | slice (e : Sol)
  | array (n : Nat) (e : Sol)
  | tuple (names : List Bytes) (l : List Sol)

mutual
def Sol.ty : Sol → Ty
  | .uint n => .uint n
  | .int n => .int n
  | .bool => .bool
  | .string => .string
  | .bytes => .bytes
  | .address => .address
  | .fixed n => .fixed n
  | .function => .function
  | .slice e => .slice e.ty
  | .array n e => .array n e.ty
  | .tuple _ l => .tuple (tys l)
def tys : List Sol → List Ty
  | [] => []
  | s :: l => s.ty :: tys l
end

/-- A text in ASCII. -/
def txt (s : String) : Bytes := s.toList.map fun c => UInt8.ofNat c.toNat

mutual
/-- The text in a signature. -/
def Sol.sig : Sol → Bytes
  | .uint n => txt "uint" ++ dec n
  | .int n => txt "int" ++ dec n
  | .bool => txt "bool"
  | .string => txt "string"
  | .bytes => txt "bytes"
  | .address => txt "address"
  | .fixed n => txt "bytes" ++ dec n
  | .function => txt "function"
  | .slice e => e.sig ++ txt "[]"
  | .array n e => e.sig ++ (txt "[" ++ dec n ++ txt "]")
  | .tuple _ l => txt "(" ++ sigs l ++ txt ")"
/-- Separated by commas. -/
def sigs : List Sol → Bytes
  | [] => []
  | s :: l => s.sig ++ moreSigs l
def moreSigs : List Sol → Bytes
  | [] => []
  | s :: l => txt "," ++ s.sig ++ moreSigs l
end

/-- The text in the description of a contract: a tuple has the name `tuple`. -/
def Sol.text : Sol → Bytes
  | .slice e => e.text ++ txt "[]"
  | .array n e => e.text ++ (txt "[" ++ dec n ++ txt "]")
  | .tuple _ _ => txt "tuple"
  | s => s.sig

mutual
/-- The components in the description of a contract: those of the tuple, if it is a tuple or a slice or array of such. -/
def Sol.comps : Sol → List AM
  | .slice e => e.comps
  | .array _ e => e.comps
  | .tuple names l => compList names l
  | _ => []
def compList : List Bytes → List Sol → List AM
  | n :: ns, s :: l => .mk n s.text s.comps :: compList ns l
  | _, _ => []
end

/-- The entry of an argument. -/
def Sol.arg (name : Bytes) (s : Sol) : AM := .mk name s.text s.comps

/-- The name of the field for a name in ASCII: without underscores, the letter behind each of them and the first letter in upper
case. -/
def fieldName : Bool → Bytes → Bytes
  | _, [] => []
  | up, c :: r =>
    if c = 95 then fieldName true r
    else (if up = true ∧ 'a'.toNat ≤ c.toNat ∧ c.toNat ≤ 'z'.toNat then UInt8.ofNat (c.toNat - 32) else c) :: fieldName false r

/-- A name of letters, digits and underscores whose first character other than an underscore is a letter. -/
def GoodName (n : Bytes) : Prop :=
  ∃ k c r, n = List.replicate k 95 ++ c :: r ∧ Selector.Letter c ∧ ∀ x ∈ r, Selector.Letter x ∨ Selector.Digit x ∨ x = 95

mutual
/-- An upper bound of the bytes of a Go value. -/
def room : Ty → Nat
  | .slice e => 32 + room e
  | .array n e => (n + 1) * room e + 8
  | .tuple l => rooms l + 16
  | .fixed n => n + 8
  | .uint n => if n = 8 ∨ n = 16 ∨ n = 32 then n / 8 + 7 else 15
  | .int n => if n = 8 ∨ n = 16 ∨ n = 32 then n / 8 + 7 else 15
  | .bool => 8
  | .string => 23
  | .bytes => 31
  | .address => 27
  | .function => 31
def rooms : List Ty → Nat
  | [] => 0
  | t :: l => room t + rooms l
end

mutual
/-- Types of Solidity; structs have good names and do not exceed the memory. -/
def Sol.Valid : Sol → Prop
  | .uint n => n % 8 = 0 ∧ 8 ≤ n ∧ n ≤ 256
  | .int n => n % 8 = 0 ∧ 8 ≤ n ∧ n ≤ 256
  | .fixed n => 1 ≤ n ∧ n ≤ 32
  | .slice e => e.Valid
  | .array n e => n < 2 ^ 63 ∧ e.Valid
  | .tuple names l => names.length = l.length ∧ (∀ n ∈ names, GoodName n) ∧ ValidSols l ∧ room (.tuple (tys l)) < 2 ^ 64
  | _ => True
def ValidSols : List Sol → Prop
  | [] => True
  | s :: l => s.Valid ∧ ValidSols l
end

/-! ### Sizes -/

theorem alignUp_le (n a : Nat) (h1 : 1 ≤ a) (h8 : a ≤ 8) : alignUp n a ≤ n + 7 := by
  unfold alignUp
  have := Nat.div_mul_le_self (n + a - 1) a
  omega

mutual
theorem goType_fits : ∀ t : Ty, room t < 2 ^ 64 → ∃ p, goType t = some p ∧ p.1 + 7 ≤ room t ∧ 1 ≤ p.2 ∧ p.2 ≤ 8
  | .uint n, _ => by
    simp only [goType, room]
    by_cases h1 : n = 8
    · subst h1; exact ⟨_, rfl, by decide, by decide, by decide⟩
    by_cases h2 : n = 16
    · subst h2; exact ⟨_, rfl, by decide, by decide, by decide⟩
    by_cases h3 : n = 32
    · subst h3; exact ⟨_, rfl, by decide, by decide, by decide⟩
    rw [if_neg h1, if_neg h2, if_neg h3, if_neg (by omega)]
    exact ⟨_, rfl, by decide, by decide, by decide⟩
  | .int n, _ => by
    simp only [goType, room]
    by_cases h1 : n = 8
    · subst h1; exact ⟨_, rfl, by decide, by decide, by decide⟩
    by_cases h2 : n = 16
    · subst h2; exact ⟨_, rfl, by decide, by decide, by decide⟩
    by_cases h3 : n = 32
    · subst h3; exact ⟨_, rfl, by decide, by decide, by decide⟩
    rw [if_neg h1, if_neg h2, if_neg h3, if_neg (by omega)]
    exact ⟨_, rfl, by decide, by decide, by decide⟩
  | .bool, _ => ⟨_, by rw [goType], by simp [room], by simp, by simp⟩
  | .string, _ => ⟨_, by rw [goType], by simp [room], by simp, by simp⟩
  | .bytes, _ => ⟨_, by rw [goType], by simp [room], by simp, by simp⟩
  | .address, _ => ⟨_, by rw [goType], by simp [room], by simp, by simp⟩
  | .function, _ => ⟨_, by rw [goType], by simp [room], by simp, by simp⟩
  | .fixed n, h => by
    rw [room] at h ⊢
    exact ⟨(n, 1), by rw [goType, if_neg (by omega)], by simp, by simp, by simp⟩
  | .slice e, h => by
    rw [room] at h ⊢
    obtain ⟨p, h1, _⟩ := goType_fits e (by omega)
    exact ⟨(24, 8), by rw [goType, h1]; rfl, by simp; omega, by simp, by simp⟩
  | .array n e, h => by
    rw [room] at h ⊢
    have hr : room e ≤ (n + 1) * room e := Nat.le_mul_of_pos_left _ (by omega)
    obtain ⟨p, h1, h2, h3, h4⟩ := goType_fits e (by omega)
    have hm : n * p.1 ≤ (n + 1) * room e := Nat.mul_le_mul (by omega) (by omega)
    exact ⟨(n * p.1, p.2), by rw [goType, h1]; simp only [Option.bind_some]; rw [if_neg (by omega)], by simp only; omega, h3, h4⟩
  | .tuple l, h => by
    rw [room] at h ⊢
    obtain ⟨p, h1, h2, h3⟩ := structOf_fits l 0 1 false (by omega) (by omega) (by omega)
    exact ⟨p, by rw [goType, h1], by omega, h3⟩
theorem structOf_fits : ∀ (l : List Ty) (size al : Nat) (lz : Bool), 1 ≤ al → al ≤ 8 → size + rooms l + 16 < 2 ^ 64 →
    ∃ p, structOf l size al lz = some p ∧ p.1 + 7 ≤ size + rooms l + 16 ∧ 1 ≤ p.2 ∧ p.2 ≤ 8
  | [], size, al, lz, h1, h2, h => by
    rw [rooms] at h ⊢
    have a1 := alignUp_le size al h1 h2
    have a2 := alignUp_le (size + 1) al h1 h2
    rw [structOf]
    split <;> rw [if_neg (by omega)] <;> exact ⟨_, rfl, by simp only; omega, h1, h2⟩
  | t :: l, size, al, lz, h1, h2, h => by
    rw [rooms] at h ⊢
    obtain ⟨p, g1, g2, g3, g4⟩ := goType_fits t (by omega)
    have a1 := alignUp_le size p.2 g3 g4
    obtain ⟨q, q1, q2, q3⟩ := structOf_fits l (alignUp size p.2 + p.1) (max al p.2) (decide (p.1 = 0)) (by omega) (by omega) (by omega)
    exact ⟨q, by rw [structOf, g1]; simp only [Option.bind_some]; rw [if_neg (by omega), q1], by omega, q3⟩
end

/-! ### Names -/

/-- Letters and digits. -/
def alnum (c : UInt8) : Bool := isAlpha c || isDigit c

theorem alpha_upper (c : UInt8) (h : isAlpha c = true) : ∃ d, toUpper c = [d] ∧ isAlpha d = true := by
  unfold toUpper
  split
  · next h1 =>
    refine ⟨_, rfl, ?_⟩
    simp only [isAlpha, Bool.or_eq_true, Bool.and_eq_true, decide_eq_true_eq, UInt8.le_iff_toNat_le] at h1 ⊢
    have e : (c - 32).toNat = c.toNat - 32 := by
      rw [UInt8.toNat_sub_of_le]
      · rfl
      · rw [UInt8.le_iff_toNat_le]; have : (97 : UInt8).toNat = 97 := rfl; have : (32 : UInt8).toNat = 32 := rfl; omega
    rw [e]
    have : (97 : UInt8).toNat = 97 := rfl
    have : (122 : UInt8).toNat = 122 := rfl
    have : (65 : UInt8).toNat = 65 := rfl
    have : (90 : UInt8).toNat = 90 := rfl
    omega
  · split
    · exact ⟨c, rfl, h⟩
    · next h2 =>
      exfalso
      simp only [isAlpha, Bool.or_eq_true, Bool.and_eq_true, decide_eq_true_eq, UInt8.le_iff_toNat_le, UInt8.lt_iff_toNat_lt] at h h2
      have : (122 : UInt8).toNat = 122 := rfl
      have : (90 : UInt8).toNat = 90 := rfl
      have : (128 : UInt8).toNat = 128 := rfl
      omega

theorem alnum_ascii (c : UInt8) (h : alnum c = true) : c < 128 := by
  simp only [alnum, isAlpha, isDigit, Bool.or_eq_true, Bool.and_eq_true, decide_eq_true_eq, UInt8.le_iff_toNat_le,
    UInt8.lt_iff_toNat_lt] at h ⊢
  have : (122 : UInt8).toNat = 122 := rfl
  have : (90 : UInt8).toNat = 90 := rfl
  have : (57 : UInt8).toNat = 57 := rfl
  have : (128 : UInt8).toNat = 128 := rfl
  omega

theorem alnum_upper (c : UInt8) (h : alnum c = true) : ∀ d ∈ toUpper c, alnum d = true := by
  by_cases ha : isAlpha c = true
  · obtain ⟨d, h1, h2⟩ := alpha_upper c ha
    intro x hx
    rw [h1] at hx
    simp only [List.mem_singleton] at hx
    subst hx
    simp [alnum, h2]
  · have hc := alnum_ascii c h
    have hd : isDigit c = true := by simp only [alnum, Bool.or_eq_true] at h; tauto
    have hn : ¬ (97 ≤ c && c ≤ 122) = true := by
      intro hx
      apply ha
      simp only [isAlpha, Bool.or_eq_true]
      exact Or.inl hx
    intro x hx
    rw [toUpper, if_neg hn, if_pos hc] at hx
    simp only [List.mem_singleton] at hx
    subst hx
    exact h

theorem split_ne (sep : UInt8) (s : Bytes) : ∃ p ps, split sep s = p :: ps := by
  cases s with
  | nil => exact ⟨_, _, rfl⟩
  | cons c r =>
    rw [split]
    split
    · exact ⟨_, _, rfl⟩
    · split
      · exact ⟨_, _, rfl⟩
      · exact ⟨_, _, rfl⟩

theorem split_mem (sep : UInt8) (s : Bytes) : ∀ p ∈ split sep s, ∀ x ∈ p, x ∈ s ∧ x ≠ sep := by
  induction s with
  | nil => intro p hp x hx; simp [split] at hp; subst hp; simp at hx
  | cons c r ih =>
    intro p hp x hx
    rw [split] at hp
    split at hp
    · rcases List.mem_cons.mp hp with rfl | hp
      · simp at hx
      · exact ⟨List.mem_cons_of_mem _ (ih p hp x hx).1, (ih p hp x hx).2⟩
    · next hc =>
      obtain ⟨q, qs, e⟩ := split_ne sep r
      rw [e] at hp ih
      simp only at hp
      rcases List.mem_cons.mp hp with rfl | hp
      · rcases List.mem_cons.mp hx with rfl | hx
        · exact ⟨by simp, by simpa using hc⟩
        · exact ⟨List.mem_cons_of_mem _ (ih q (by simp) x hx).1, (ih q (by simp) x hx).2⟩
      · exact ⟨List.mem_cons_of_mem _ (ih p (by simp [hp]) x hx).1, (ih p (by simp [hp]) x hx).2⟩

theorem camel_underscores (k : Nat) (s : Bytes) : toCamelCase (List.replicate k 95 ++ s) = toCamelCase s := by
  induction k with
  | zero => rfl
  | succ k ih => rw [← ih]; simp [List.replicate_succ, toCamelCase, split, capital]

theorem good_camel (n : Bytes) (h : GoodName n) : ∃ c r, toCamelCase n = c :: r ∧ isAlpha c = true ∧ ∀ x ∈ r, alnum x = true := by
  obtain ⟨k, c, r, rfl, hc, hr⟩ := h
  rw [camel_underscores]
  rw [← (Selector.C80_classes c).2.1] at hc
  have h95 : (c == 95) = false := by
    cases h : c == 95
    · rfl
    · simp only [beq_iff_eq] at h
      subst h
      simp [isAlpha] at hc
  obtain ⟨p, ps, e⟩ := split_ne 95 r
  obtain ⟨d, h1, h2⟩ := alpha_upper c hc
  have hall : ∀ q ∈ split 95 r, ∀ x ∈ q, alnum x = true := by
    intro q hq x hx
    obtain ⟨g1, g2⟩ := split_mem 95 r q hq x hx
    rcases hr x g1 with h | h | h
    · rw [← (Selector.C80_classes x).2.1] at h; simp [alnum, h]
    · rw [← (Selector.C80_classes x).1] at h; simp [alnum, h]
    · exact absurd h g2
  rw [e] at hall
  refine ⟨d, p ++ (ps.map capital).flatten, ?_, h2, ?_⟩
  · rw [toCamelCase, split, h95, e]
    simp [capital, h1]
  · intro x hx
    rcases List.mem_append.mp hx with hx | hx
    · exact hall p (by simp) x hx
    · simp only [List.mem_flatten, List.mem_map] at hx
      obtain ⟨_, ⟨q, hq, rfl⟩, hx⟩ := hx
      cases q with
      | nil => simp [capital] at hx
      | cons y q =>
        have hq' := hall (y :: q) (by simp [hq])
        rw [capital] at hx
        rcases List.mem_append.mp hx with hx | hx
        · exact alnum_upper y (hq' y (by simp)) x hx
        · exact hq' x (by simp [hx])

theorem dec_digits (n : Nat) : ∀ c ∈ dec n, isDigit c = true := by
  have hd : ∀ k, k < 10 → isDigit (UInt8.ofNat (48 + k)) = true := by
    intro k hk
    rw [(Selector.C80_classes _).1, Selector.Digit, digit_toNat k hk]
    have : '0'.toNat = 48 := rfl
    have : '9'.toNat = 57 := rfl
    omega
  induction n using Nat.strongRecOn with
  | ind n ih =>
    rw [dec]
    split
    · next h => intro c hc; simp only [List.mem_singleton] at hc; subst hc; exact hd n h
    · next h =>
      intro c hc
      rcases List.mem_append.mp hc with hc | hc
      · exact ih (n / 10) (by omega) c hc
      · simp only [List.mem_singleton] at hc; subst hc; exact hd _ (by omega)

theorem alnum_valid (U : Bytes → Bool) (c : UInt8) (r : Bytes) (hc : isAlpha c = true) (hr : ∀ x ∈ r, alnum x = true) :
    isValidFieldName U (c :: r) = true := by
  have hl : ∀ x, isAlpha x = true → isLetter x = true := fun x hx => by
    simp only [isAlpha, isLetter, Bool.or_eq_true] at hx ⊢
    exact Or.inl hx
  have hca : alnum c = true := by simp [alnum, hc]
  unfold isValidFieldName
  rw [if_pos (by
    simp only [List.all_eq_true, decide_eq_true_eq, List.mem_cons]
    rintro x (rfl | hx)
    · exact alnum_ascii _ hca
    · exact alnum_ascii _ (hr x hx))]
  simp only [hl c hc, Bool.true_and, List.all_eq_true, Bool.or_eq_true]
  intro x hx
  have := hr x hx
  simp only [alnum, Bool.or_eq_true] at this
  exact this.imp (hl x) id

/-! ### Texts -/

theorem span_app (p : UInt8 → Bool) (a b : Bytes) (ha : ∀ x ∈ a, p x = true) (hb : ∀ c, b.head? = some c → p c = false) :
    (a ++ b).takeWhile p = a ∧ (a ++ b).dropWhile p = b := by
  induction a with
  | nil =>
    cases b with
    | nil => exact ⟨rfl, rfl⟩
    | cons c b => simp [hb c rfl]
  | cons x a ih =>
    obtain ⟨h1, h2⟩ := ih (fun y hy => ha y (by simp [hy]))
    simp [ha x (by simp), h1, h2]

theorem digit_not_alpha (c : UInt8) (h : isDigit c = true) : isAlpha c = false := by
  cases h' : isAlpha c
  · rfl
  · exfalso
    simp only [isAlpha, isDigit, Bool.or_eq_true, Bool.and_eq_true, decide_eq_true_eq, UInt8.le_iff_toNat_le] at h h'
    have : (97 : UInt8).toNat = 97 := rfl
    have : (65 : UInt8).toNat = 65 := rfl
    have : (57 : UInt8).toNat = 57 := rfl
    omega

/-- A word of letters with digits behind it. -/
theorem regex_word (w d : Bytes) (hw : w ≠ []) (ha : ∀ x ∈ w, isAlpha x = true) (hd : ∀ x ∈ d, isDigit x = true) :
    typeRegex (w ++ d) = some (w, d, []) := by
  obtain ⟨c, w', rfl⟩ := List.exists_cons_of_ne_nil hw
  have h0 : (c :: w' ++ d).dropWhile (fun x => !isAlpha x) = c :: w' ++ d := by
    simp [ha c (by simp)]
  obtain ⟨h1, h2⟩ := span_app isAlpha (c :: w') d ha (fun x hx => digit_not_alpha x (hd x (List.mem_of_mem_head? hx)))
  have h3 := span_app isDigit d [] hd (by simp)
  rw [List.append_nil] at h3
  unfold typeRegex
  simp only
  rw [h0, h1, h2, h3.1, h3.2]
  simp

theorem count_append (c : UInt8) (a b : Bytes) : count c (a ++ b) = count c a + count c b := List.countP_append

theorem count_alnum (c : UInt8) (hc : alnum c = false) (a : Bytes) (h : ∀ x ∈ a, alnum x = true) : count c a = 0 := by
  rw [count, List.countP_eq_zero]
  intro x hx
  simp only [beq_iff_eq]
  rintro rfl
  rw [h x hx] at hc
  cases hc

theorem cutLast_app (c : UInt8) (a b : Bytes) (h : count c b = 0) : cutLast c (a ++ c :: b) = (a, c :: b) := by
  induction a with
  | nil => simp [cutLast, h]
  | cons x a ih =>
    have : count c (a ++ c :: b) ≠ 0 := by
      rw [count_append]
      simp [count]
    rw [List.cons_append, cutLast, if_pos this, ih]

theorem digitRuns_digits (d r acc : Bytes) (h : ∀ x ∈ d, isDigit x = true) : digitRuns (d ++ r) acc = digitRuns r (acc ++ d) := by
  induction d generalizing acc with
  | nil => simp
  | cons c d ih =>
    rw [List.cons_append, digitRuns, if_pos (h c (by simp)), ih _ (fun x hx => h x (by simp [hx]))]
    simp

theorem txt_word {w : Bytes} {n : Nat} (hw : ∀ x ∈ w, isAlpha x = true) : ∀ x ∈ w ++ dec n, alnum x = true := by
  intro x hx
  rcases List.mem_append.mp hx with hx | hx
  · simp [alnum, hw x hx]
  · simp [alnum, dec_digits n x hx]

theorem uint_txt : txt "uint" = uintText := rfl
theorem int_txt : txt "int" = intText := rfl
theorem bool_txt : txt "bool" = boolText := rfl
theorem string_txt : txt "string" = stringText := rfl
theorem bytes_txt : txt "bytes" = bytesText := rfl
theorem address_txt : txt "address" = addressText := rfl
theorem function_txt : txt "function" = functionText := rfl
theorem tuple_txt : txt "tuple" = tupleText := rfl
theorem open_txt : txt "[" = [91] := rfl
theorem close_txt : txt "]" = [93] := rfl
theorem pair_txt : txt "[]" = [91, 93] := rfl

/-- The numbers of brackets in the text. -/
theorem text_count : ∀ s : Sol, count 91 s.text = count 93 s.text := by
  intro s
  have hz : ∀ w : Bytes, (∀ x ∈ w, alnum x = true) → count 91 w = count 93 w := fun w hw => by
    rw [count_alnum 91 (by decide) w hw, count_alnum 93 (by decide) w hw]
  have hdn : ∀ n, ∀ x ∈ dec n, alnum x = true := fun n x hx => by simp [alnum, dec_digits n x hx]
  match s with
  | .uint n => exact hz _ (txt_word (w := txt "uint") (by decide))
  | .int n => exact hz _ (txt_word (w := txt "int") (by decide))
  | .fixed n => exact hz _ (txt_word (w := txt "bytes") (by decide))
  | .bool => rfl
  | .string => rfl
  | .bytes => rfl
  | .address => rfl
  | .function => rfl
  | .tuple _ _ => rfl
  | .slice e => rw [Sol.text, count_append, count_append, text_count e]; rfl
  | .array n e =>
    have := hz _ (hdn n)
    rw [Sol.text, count_append, count_append, count_append, count_append, count_append, count_append, text_count e, this]
    have e1 : count 91 (txt "[") = 1 := rfl
    have e2 : count 93 (txt "[") = 0 := rfl
    have e3 : count 91 (txt "]") = 0 := rfl
    have e4 : count 93 (txt "]") = 1 := rfl
    omega

theorem joinComma_cons (k : Bytes) (l : List Bytes) : joinComma (k :: l) = k ++ l.flatMap (44 :: ·) := by
  induction l generalizing k with
  | nil => simp [joinComma]
  | cons a l ih => rw [joinComma, ih]; · simp
                   · simp

theorem moreSigs_eq (l : List Sol) : moreSigs l = (l.map Sol.sig).flatMap (44 :: ·) := by
  induction l with
  | nil => rfl
  | cons s l ih => rw [moreSigs, ih]; rfl

theorem sigs_eq (l : List Sol) : sigs l = joinComma (l.map Sol.sig) := by
  cases l with
  | nil => rfl
  | cons s l => rw [sigs, moreSigs_eq, List.map_cons, joinComma_cons]

theorem camel_ascii (s : Bytes) (h : ∀ c ∈ s, c < 128) : toCamelCase s = fieldName true s ∧
    ∀ p ps, split 95 s = p :: ps → p ++ (ps.map capital).flatten = fieldName false s := by
  induction s with
  | nil => exact ⟨rfl, by intro p ps hp; simp [split] at hp; obtain ⟨rfl, rfl⟩ := hp; rfl⟩
  | cons c r ih =>
    obtain ⟨i1, i2⟩ := ih (fun x hx => h x (by simp [hx]))
    obtain ⟨p, ps, e⟩ := split_ne 95 r
    have j2 := i2 p ps e
    have hc := h c (by simp)
    by_cases h95 : c = 95
    · subst h95
      have i1' := i1
      rw [toCamelCase] at i1'
      refine ⟨?_, ?_⟩
      · rw [toCamelCase, split, if_pos (by rfl), fieldName, if_pos rfl, ← i1']; simp [capital]
      · intro q qs hq
        rw [split, if_pos (by rfl)] at hq
        obtain ⟨rfl, rfl⟩ := List.cons.inj hq
        rw [fieldName, if_pos rfl, ← i1']; simp
    · have hb : ¬ (c == 95) = true := by simpa using h95
      refine ⟨?_, ?_⟩
      · rw [toCamelCase, split, if_neg hb, e, fieldName, if_neg h95, ← j2]
        simp only [List.map_cons, List.flatten_cons, capital]
        have : toUpper c = [if true = true ∧ 'a'.toNat ≤ c.toNat ∧ c.toNat ≤ 'z'.toNat then UInt8.ofNat (c.toNat - 32) else c] := by
          have e1 : 'a'.toNat = 97 := rfl
          have e2 : 'z'.toNat = 122 := rfl
          have e3 : (97 : UInt8).toNat = 97 := rfl
          have e4 : (122 : UInt8).toNat = 122 := rfl
          unfold toUpper
          rw [if_pos hc]
          simp only [Bool.and_eq_true, decide_eq_true_eq, UInt8.le_iff_toNat_le, e1, e2, e3, e4, true_and]
          split
          · next hh =>
            congr 1
            rw [← UInt8.toNat_inj, UInt8.toNat_sub_of_le, UInt8.toNat_ofNat']
            · have : (32 : UInt8).toNat = 32 := rfl
              have := c.toNat_lt
              omega
            · rw [UInt8.le_iff_toNat_le]
              have : (32 : UInt8).toNat = 32 := rfl
              omega
          · rfl
        rw [this]
        simp
      · intro q qs hq
        rw [split, if_neg hb, e] at hq
        obtain ⟨rfl, rfl⟩ := List.cons.inj hq
        rw [fieldName, if_neg h95, ← j2]
        simp

theorem good_ascii (n : Bytes) (h : GoodName n) : ∀ c ∈ n, c < 128 := by
  obtain ⟨k, c, r, rfl, hc, hr⟩ := h
  rw [← (Selector.C80_classes c).2.1] at hc
  intro x hx
  simp only [List.mem_append, List.mem_replicate, List.mem_cons] at hx
  rcases hx with ⟨_, rfl⟩ | rfl | hx
  · decide
  · exact alnum_ascii _ (by simp [alnum, hc])
  · rcases hr x hx with h | h | rfl
    · rw [← (Selector.C80_classes x).2.1] at h; exact alnum_ascii _ (by simp [alnum, h])
    · rw [← (Selector.C80_classes x).1] at h; exact alnum_ascii _ (by simp [alnum, h])
    · decide

/-- Names of fields for raw names: the names in camel case, possibly with a number behind them. -/
def FieldNames (raws fields : List Bytes) : Prop :=
  fields.Nodup ∧ List.Forall₂ (fun raw f => f = fieldName true raw ∨ ∃ k, f = fieldName true raw ++ dec k) raws fields

theorem sized_ok (n : Nat) (hn : n < 2 ^ 63) (w : Bytes) : varSize w (dec n) [] = .ok n := by
  rw [varSize, if_neg (by simpa using dec_ne_nil n), if_pos (by rfl), atoi, ofDec_dec, if_neg (by omega)]

theorem base_sized (F : Res (List (Bytes × Bytes × Info))) (w : Bytes) (n : Nat) (hn : n < 2 ^ 63) (hw : w ≠ [])
    (ha : ∀ x ∈ w, isAlpha x = true) : baseType F (w ++ dec n) =
      if w = intText then .ok ⟨.int n, w ++ dec n, [], []⟩
      else if w = uintText then .ok ⟨.uint n, w ++ dec n, [], []⟩
      else if w = boolText then .ok ⟨.bool, w ++ dec n, [], []⟩
      else if w = addressText then .ok ⟨.address, w ++ dec n, [], []⟩
      else if w = stringText then .ok ⟨.string, w ++ dec n, [], []⟩
      else if w = bytesText then (if n = 0 then .ok ⟨.bytes, w ++ dec n, [], []⟩ else .ok ⟨.fixed n, w ++ dec n, [], []⟩)
      else if w = tupleText then Res.bind F tupleInfo
      else if w = functionText then .ok ⟨.function, w ++ dec n, [], []⟩
      else .err := by
  rw [baseType, regex_word w (dec n) hw ha (dec_digits n)]
  simp only [sized_ok n hn, Res.bind]

mutual
theorem newType_ok (U : Bytes → Bool) : ∀ s : Sol, s.Valid →
    ∃ info, readType (baseType (newFields U s.comps [])) (count 91 s.text) s.text = .ok info ∧ info.ty = s.ty ∧ info.kind = s.sig ∧
      ∀ names l, s = .tuple names l → info.raw = names ∧ FieldNames names info.fields
  | .uint n, h => by
    simp only [Sol.Valid] at h
    have hc : count 91 (Sol.uint n).text = 0 := count_alnum 91 (by decide) _ (txt_word (w := txt "uint") (by decide))
    refine ⟨⟨.uint n, txt "uint" ++ dec n, [], []⟩, ?_, by rw [Sol.ty], by rw [Sol.sig], by intro _ _ h; cases h⟩
    rw [hc, readType, if_neg (by rw [text_count]; simp), show (Sol.uint n).text = (Sol.uint n).sig from rfl]
    · rw [Sol.sig, uint_txt, base_sized _ _ n (by omega) (by decide) (by decide)]; rfl
  | .int n, h => by
    simp only [Sol.Valid] at h
    have hc : count 91 (Sol.int n).text = 0 := count_alnum 91 (by decide) _ (txt_word (w := txt "int") (by decide))
    refine ⟨⟨.int n, txt "int" ++ dec n, [], []⟩, ?_, by rw [Sol.ty], by rw [Sol.sig], by intro _ _ h; cases h⟩
    rw [hc, readType, if_neg (by rw [text_count]; simp), show (Sol.int n).text = (Sol.int n).sig from rfl]
    · rw [Sol.sig, int_txt, base_sized _ _ n (by omega) (by decide) (by decide)]; rfl
  | .fixed n, h => by
    simp only [Sol.Valid] at h
    have hc : count 91 (Sol.fixed n).text = 0 := count_alnum 91 (by decide) _ (txt_word (w := txt "bytes") (by decide))
    refine ⟨⟨.fixed n, txt "bytes" ++ dec n, [], []⟩, ?_, by rw [Sol.ty], by rw [Sol.sig], by intro _ _ h; cases h⟩
    rw [hc, readType, if_neg (by rw [text_count]; simp), show (Sol.fixed n).text = (Sol.fixed n).sig from rfl]
    · rw [Sol.sig, bytes_txt, base_sized _ _ n (by omega) (by decide) (by decide)]
      have : n ≠ 0 := by omega
      simp [this, intText, uintText, boolText, addressText, stringText, bytesText]
  | .bool, _ => ⟨⟨.bool, txt "bool", [], []⟩, rfl, rfl, rfl, by intro _ _ h; cases h⟩
  | .string, _ => ⟨⟨.string, txt "string", [], []⟩, rfl, rfl, rfl, by intro _ _ h; cases h⟩
  | .bytes, _ => ⟨⟨.bytes, txt "bytes", [], []⟩, rfl, rfl, rfl, by intro _ _ h; cases h⟩
  | .address, _ => ⟨⟨.address, txt "address", [], []⟩, rfl, rfl, rfl, by intro _ _ h; cases h⟩
  | .function, _ => ⟨⟨.function, txt "function", [], []⟩, rfl, rfl, rfl, by intro _ _ h; cases h⟩
  | .slice e, h => by
    simp only [Sol.Valid] at h
    obtain ⟨info, h1, h2, h3, _⟩ := newType_ok U e h
    refine ⟨⟨.slice info.ty, info.kind ++ [91, 93], [], []⟩, ?_, by rw [Sol.ty, ← h2], by rw [Sol.sig, h3]; rfl,
      by intro _ _ h; cases h⟩
    have hc : count 91 (Sol.slice e).text = count 91 e.text + 1 := by rw [Sol.text, count_append]; rfl
    rw [hc, readType, if_neg (by rw [text_count]; simp), Sol.comps, Sol.text, pair_txt, cutLast_app 91 e.text [93] rfl]
    simp only
    rw [h1]
    rfl
  | .array n e, h => by
    simp only [Sol.Valid] at h
    obtain ⟨info, h1, h2, h3, _⟩ := newType_ok U e h.2
    refine ⟨⟨.array n info.ty, info.kind ++ (91 :: (dec n ++ [93])), [], []⟩, ?_, by rw [Sol.ty, ← h2], by rw [Sol.sig, h3]; rfl,
      by intro _ _ h; cases h⟩
    have hdn : count 91 (dec n ++ [93]) = 0 := by
      rw [count_append, count_alnum 91 (by decide) _ (fun x hx => by simp [alnum, dec_digits n x hx])]; rfl
    have ht : (Sol.array n e).text = e.text ++ 91 :: (dec n ++ [93]) := by rw [Sol.text, open_txt, close_txt]; simp
    have hc : count 91 (Sol.array n e).text = count 91 e.text + 1 := by
      rw [ht, count_append, show (91 : UInt8) :: (dec n ++ [93]) = [91] ++ (dec n ++ [93]) from rfl, count_append, hdn]; rfl
    rw [hc, readType, if_neg (by rw [text_count]; simp), Sol.comps, ht, cutLast_app 91 e.text _ hdn]
    simp only
    rw [h1]
    have hr : digitRuns (91 :: (dec n ++ [93])) [] = [dec n] := by
      rw [digitRuns, if_neg (by decide), if_pos (by rfl), digitRuns_digits _ _ _ (dec_digits n)]
      simp [digitRuns, dec_ne_nil, isDigit]
    simp only [Res.bind, bracketType, hr, atoi, ofDec_dec]
    rw [if_neg (by omega)]
  | .tuple names l, h => by
    simp only [Sol.Valid] at h
    obtain ⟨hlen, hgood, hv, hroom⟩ := h
    have hroom' := hroom
    rw [room] at hroom'
    obtain ⟨r, r1, r2, r3, r4, r5, r6, r7⟩ := newFields_ok U names l [] hlen hgood hv (by omega)
    obtain ⟨p, p1, _⟩ := goType_fits _ hroom
    refine ⟨⟨.tuple (tys l), 40 :: joinComma (l.map Sol.sig) ++ [41], names, r.map (·.2.1)⟩, ?_, by rw [Sol.ty], ?_, ?_⟩
    · have hb : readType (baseType (newFields U (Sol.tuple names l).comps [])) (count 91 (Sol.tuple names l).text) (Sol.tuple names l).text =
        Res.bind (newFields U (compList names l) []) tupleInfo := by rw [Sol.comps]; rfl
      rw [hb, r1, Res.bind, tupleInfo, r2, p1, r3, r4]
    · rw [Sol.sig, sigs_eq]; rfl
    · intro names' l' e
      cases e
      exact ⟨rfl, r5, r7⟩
theorem newFields_ok (U : Bytes → Bool) : ∀ (names : List Bytes) (l : List Sol) (used : List Bytes), names.length = l.length →
    (∀ n ∈ names, GoodName n) → ValidSols l → rooms (tys l) < 2 ^ 64 →
    ∃ r, newFields U (compList names l) used = .ok r ∧ r.map (fun f => f.2.2.ty) = tys l ∧ r.map (fun f => f.2.2.kind) = l.map Sol.sig ∧
      r.map (·.1) = names ∧ (r.map (·.2.1)).Nodup ∧ (∀ f ∈ r.map (·.2.1), ¬ f ∈ used) ∧
      List.Forall₂ (fun raw f => f = fieldName true raw ∨ ∃ k, f = fieldName true raw ++ dec k) names (r.map (·.2.1))
  | [], [], used, _, _, _, _ => ⟨[], rfl, rfl, rfl, rfl, List.nodup_nil, by simp, List.Forall₂.nil⟩
  | n :: names, s :: l, used, hlen, hgood, hv, hroom => by
    rw [ValidSols] at hv
    rw [tys, rooms] at hroom
    obtain ⟨info, i1, i2, i3, _⟩ := newType_ok U s hv.1
    obtain ⟨c, m, hcm, hc, hm⟩ := good_camel n (hgood n (by simp))
    have hcam := (camel_ascii n (good_ascii n (hgood n (by simp)))).1
    obtain ⟨f, f1, f2, f3, f4⟩ := C79_fresh (toCamelCase n) (fun s => used.contains s) used (fun s hs => by simpa using hs)
      (used.length + 1) (by omega)
    have hform : f = toCamelCase n ∨ ∃ k, f = toCamelCase n ++ dec k := by
      cases hu : used.contains (toCamelCase n)
      · exact Or.inl (f3 hu)
      · obtain ⟨k, hk, _⟩ := f4 hu
        exact Or.inr ⟨k, hk⟩
    have hvalid : isValidFieldName U f = true := by
      rcases hform with rfl | ⟨k, rfl⟩
      · rw [hcm]; exact alnum_valid U c m hc hm
      · rw [hcm]
        refine alnum_valid U c (m ++ dec k) hc ?_
        intro x hx
        rcases List.mem_append.mp hx with hx | hx
        · exact hm x hx
        · simp [alnum, dec_digits k x hx]
    obtain ⟨p, p1, _⟩ := goType_fits s.ty (by omega)
    obtain ⟨r, r1, r2, r3, r4, r5, r6, r7⟩ := newFields_ok U names l (f :: used) (by simpa using hlen)
      (fun x hx => hgood x (by simp [hx])) hv.2 (by omega)
    refine ⟨(n, f, info) :: r, ?_, by simp [r2, i2, tys], by simp [r3, i3], by simp [r4], ?_, ?_, ?_⟩
    · rw [compList, newFields, newType, i1]
      simp only [Res.bind]
      rw [if_neg (by rw [hcm]; simp), f1]
      simp only [hvalid, Bool.not_true, Bool.false_eq_true, if_false, i2, p1, r1]
    · simp only [List.map_cons, List.nodup_cons]
      exact ⟨fun hm => r6 f hm (by simp), r5⟩
    · intro x hx
      simp only [List.map_cons, List.mem_cons] at hx
      rcases hx with rfl | hx
      · simpa using f2
      · exact fun hu => r6 x hx (by simp [hu])
    · simp only [List.map_cons]
      refine List.Forall₂.cons ?_ r7
      rw [← hcam]
      exact hform
  | [], _ :: _, _, hlen, _, _, _ => by simp at hlen
  | _ :: _, [], _, hlen, _, _, _ => by simp at hlen
end

/-- **C124.**  Every type of Solidity is read from its description, whatever its name: the type is the one described, the text that
signatures are made of is its canonical text; for a struct the names are kept, and the fields of the Go struct have different names
in camel case.  Missing: names that the code refuses or that Go structs cannot have, structs that do not fit in memory. -/
theorem C124_read_partial (U : Bytes → Bool) (name : Bytes) (s : Sol) (h : s.Valid) :
    ∃ info, newType U (s.arg name) = .ok info ∧ info.ty = s.ty ∧ info.kind = s.sig ∧
      ∀ names l, s = .tuple names l → info.raw = names ∧ FieldNames names info.fields := by
  rw [Sol.arg, newType]
  exact newType_ok U s h

/-- A struct with names that collide in camel case, a slice of arrays of it. -/
def sampleSol : Sol := .slice (.array 3 (.tuple [txt "a_b", txt "_aB", txt "to"] [.uint 256, .bool, .slice (.fixed 32)]))

example : sampleSol.Valid ∧ sampleSol.text = txt "tuple[3][]" ∧ sampleSol.sig = txt "(uint256,bool,bytes32[])[3][]" := by
  refine ⟨?_, by decide +kernel, by decide +kernel⟩
  simp only [sampleSol, Sol.Valid, ValidSols, List.mem_cons, List.not_mem_nil, or_false, forall_eq_or_imp, forall_eq, and_true]
  refine ⟨by norm_num, rfl, ⟨⟨0, 97, [95, 98], rfl, ?_, ?_⟩, ⟨1, 97, [66], rfl, ?_, ?_⟩, ⟨0, 116, [111], rfl, ?_, ?_⟩⟩, by norm_num, by decide⟩ <;>
    first
      | (simp only [Selector.Letter]; decide)
      | (simp only [List.mem_cons, List.not_mem_nil, or_false, forall_eq_or_imp, forall_eq, Selector.Letter, Selector.Digit]; decide)

theorem last_of (c : UInt8) (t : Bytes) (h : count c t ≠ 0) : ∃ p s, t = p ++ c :: s ∧ count c s = 0 := by
  induction t with
  | nil => exact absurd rfl h
  | cons x r ih =>
    by_cases h0 : count c r = 0
    · by_cases hx : x = c
      · exact ⟨[], r, by rw [hx]; rfl, h0⟩
      · exact absurd (by simpa [count, hx] using h0) h
    · obtain ⟨p, s, e, e'⟩ := ih h0
      exact ⟨x :: p, s, by rw [e]; rfl, e'⟩

theorem readType_counts (base : Bytes → Res Info) (n : Nat) (t : Bytes) (info : Info) (h : readType base n t = .ok info) :
    count 91 t = count 93 t := by
  cases n with
  | zero =>
    rw [readType] at h
    split at h
    · cases h
    · next hc => simpa using hc
  | succ n =>
    rw [readType] at h
    split at h
    · cases h
    · next hc => simpa using hc

theorem readType_prefix (base : Bytes → Res Info) (n : Nat) (t : Bytes) (info : Info) (hn : n = count 91 t) (h : readType base n t = .ok info)
    (p s : Bytes) (e : t = p ++ 91 :: s) : count 91 p = count 93 p := by
  induction n generalizing t info s with
  | zero => rw [e] at hn; simp [count] at hn
  | succ n ih =>
    obtain ⟨p', s', e', h0⟩ := last_of 91 t (by omega)
    rw [readType] at h
    split at h
    · cases h
    · rw [e', cutLast_app 91 p' s' h0] at h
      cases hr : readType base n p' with
      | err => rw [hr] at h; cases h
      | panic => rw [hr] at h; cases h
      | ok emb =>
        have hc : n = count 91 p' := by
          rw [e'] at hn
          simp only [count, List.countP_append, List.countP_cons] at hn h0 ⊢
          simp only [beq_self_eq_true, if_true] at hn
          omega
        rcases List.append_eq_append_iff.1 (e.symm.trans e') with ⟨q, hq, hq'⟩ | ⟨q, hq, hq'⟩
        · cases q with
          | nil => rw [List.append_nil] at hq; rw [← hq]; exact readType_counts base n p' emb hr
          | cons x q =>
            rw [List.cons_append, List.cons.injEq] at hq'
            exact ih p' emb hc hr q (by rw [hq, hq'.1])
        · cases q with
          | nil => rw [List.append_nil] at hq; rw [hq]; exact readType_counts base n p' emb hr
          | cons x q =>
            rw [List.cons_append, List.cons.injEq] at hq'
            rw [hq'.2] at h0
            simp [count] at h0

/-- **C124.**  A type is only accepted if its brackets pair up: as many are closed as are opened, in the whole text and in front of
every opening bracket. -/
theorem C124_brackets (U : Bytes → Bool) (name typ : Bytes) (comps : List AM) (info : Info) (h : newType U (.mk name typ comps) = .ok info) :
    typ.count 91 = typ.count 93 ∧ ∀ p s, typ = p ++ 91 :: s → p.count 91 = p.count 93 := by
  rw [newType] at h
  exact ⟨readType_counts _ _ _ _ h, fun p s e => readType_prefix _ _ _ _ rfl h p s e⟩

example (U : Bytes → Bool) : newType U (.mk [] (txt "uint8[") []) = .err ∧ newType U (.mk [] (txt "uint8[]][") []) = .err ∧
    (∃ i, newType U (.mk [] (txt "uint8[][2]") []) = .ok i ∧ i.ty = .array 2 (.slice (.uint 8))) := by
  refine ⟨by rfl, by rfl, ?_⟩
  exact ⟨_, rfl, rfl⟩

/-! ### What is accepted -/

/-- **C124.**  A word of letters with digits behind it is accepted if it is `uint` or `int` with digits, or one of the words
`bool`, `address`, `string`, `bytes`, `function` with or without digits, or `tuple` with good components; the number must fit in an
`int`.  The digits only count for `uint`, `int` and `bytes`. -/
theorem C124_word (U : Bytes → Bool) (name w d : Bytes) (comps : List AM) (hw : w ≠ []) (ha : ∀ x ∈ w, Selector.Letter x)
    (hd : ∀ x ∈ d, Selector.Digit x) (info : Info) (h : newType U (.mk name (w ++ d) comps) = .ok info) :
    (d = [] ∨ ofDec d < 2 ^ 63) ∧
      ((w = txt "uint" ∧ d ≠ [] ∧ info.ty = .uint (ofDec d) ∧ info.kind = w ++ d) ∨
       (w = txt "int" ∧ d ≠ [] ∧ info.ty = .int (ofDec d) ∧ info.kind = w ++ d) ∨
       (w = txt "bool" ∧ info.ty = .bool ∧ info.kind = w ++ d) ∨
       (w = txt "address" ∧ info.ty = .address ∧ info.kind = w ++ d) ∨
       (w = txt "string" ∧ info.ty = .string ∧ info.kind = w ++ d) ∨
       (w = txt "bytes" ∧ info.ty = (if d = [] ∨ ofDec d = 0 then .bytes else .fixed (ofDec d)) ∧ info.kind = w ++ d) ∨
       (w = txt "tuple" ∧ ∃ l, info.ty = .tuple l) ∨
       (w = txt "function" ∧ info.ty = .function ∧ info.kind = w ++ d)) := by
  have ha' : ∀ x ∈ w, isAlpha x = true := fun x hx => (Selector.C80_classes x).2.1.mpr (ha x hx)
  have hd' : ∀ x ∈ d, isDigit x = true := fun x hx => (Selector.C80_classes x).1.mpr (hd x hx)
  have hal : ∀ x ∈ w ++ d, alnum x = true := by
    intro x hx
    rcases List.mem_append.mp hx with hx | hx
    · simp [alnum, ha' x hx]
    · simp [alnum, hd' x hx]
  rw [newType, count_alnum 91 (by decide) _ hal, readType,
    if_neg (by rw [count_alnum 91 (by decide) _ hal, count_alnum 93 (by decide) _ hal]; simp), baseType, regex_word w d hw ha' hd'] at h
  simp only at h
  have hsz : varSize w d [] = .err ∨ ∃ n, varSize w d [] = .ok n ∧ (d = [] ∨ ofDec d < 2 ^ 63) ∧ n = (if d = [] then 0 else ofDec d) ∧
      (d = [] → w ≠ uintText ∧ w ≠ intText) := by
    rw [varSize]
    by_cases h0 : d = []
    · subst h0
      rw [if_pos (by rfl)]
      split
      · exact Or.inl rfl
      · next hu => exact Or.inr ⟨0, rfl, Or.inl rfl, rfl, fun _ => not_or.mp hu⟩
    · rw [if_neg (by simpa using h0), if_pos (by rfl), atoi]
      split
      · exact Or.inl rfl
      · next hu => exact Or.inr ⟨_, rfl, Or.inr (by omega), by simp, fun e => absurd e h0⟩
  rcases hsz with hsz | ⟨n, hsz, hlt, hn, hne⟩
  · rw [hsz] at h; cases h
  · rw [hsz, Res.bind] at h
    refine ⟨hlt, ?_⟩
    rw [uint_txt, int_txt, bool_txt, address_txt, string_txt, bytes_txt, tuple_txt, function_txt]
    split at h
    · next e =>
      cases h
      by_cases h0 : d = []
      · exact absurd e (hne h0).2
      · rw [if_neg h0] at hn; exact Or.inr (Or.inl ⟨e, h0, by rw [hn], rfl⟩)
    split at h
    · next e =>
      cases h
      by_cases h0 : d = []
      · exact absurd e (hne h0).1
      · rw [if_neg h0] at hn; exact Or.inl ⟨e, h0, by rw [hn], rfl⟩
    split at h
    · next e => cases h; exact Or.inr (Or.inr (Or.inl ⟨e, rfl, rfl⟩))
    split at h
    · next e => cases h; exact Or.inr (Or.inr (Or.inr (Or.inl ⟨e, rfl, rfl⟩)))
    split at h
    · next e => cases h; exact Or.inr (Or.inr (Or.inr (Or.inr (Or.inl ⟨e, rfl, rfl⟩))))
    split at h
    · next e =>
      refine Or.inr (Or.inr (Or.inr (Or.inr (Or.inr (Or.inl ⟨e, ?_⟩)))))
      by_cases h0 : d = []
      · rw [if_pos h0] at hn
        subst hn
        rw [if_pos rfl] at h
        cases h
        exact ⟨by rw [if_pos (Or.inl h0)], rfl⟩
      · rw [if_neg h0] at hn
        subst hn
        by_cases hz : ofDec d = 0
        · rw [if_pos hz] at h
          cases h
          exact ⟨by rw [if_pos (Or.inr hz)], rfl⟩
        · rw [if_neg hz] at h
          cases h
          exact ⟨by rw [if_neg (by tauto)], rfl⟩
    split at h
    · next e =>
      refine Or.inr (Or.inr (Or.inr (Or.inr (Or.inr (Or.inr (Or.inl ⟨e, ?_⟩))))))
      cases hF : newFields U comps [] with
      | ok l =>
        rw [hF] at h
        simp only [Res.bind, tupleInfo] at h
        split at h
        · cases h
        · cases h; exact ⟨_, rfl⟩
      | err => rw [hF] at h; cases h
      | panic => rw [hF] at h; cases h
    split at h
    · next e => cases h; exact Or.inr (Or.inr (Or.inr (Or.inr (Or.inr (Or.inr (Or.inr ⟨e, rfl, rfl⟩))))))
    · cases h

/-- **C124, refuted**: texts that are no types are accepted, and stand as they are in signatures: `?bool!`, `bool7`, `uint7`,
`bytes0`, `uint8[-3]` as an array of three, `uint8[]3` as an array of three. -/
theorem C124_loose_refuted (U : Bytes → Bool) (name : Bytes) :
    newType U (.mk name (txt "?bool!") []) = .ok ⟨.bool, txt "?bool!", [], []⟩ ∧
    newType U (.mk name (txt "bool7") []) = .ok ⟨.bool, txt "bool7", [], []⟩ ∧
    newType U (.mk name (txt "uint7") []) = .ok ⟨.uint 7, txt "uint7", [], []⟩ ∧
    newType U (.mk name (txt "bytes0") []) = .ok ⟨.bytes, txt "bytes0", [], []⟩ ∧
    newType U (.mk name (txt "uint8[-3]") []) = .ok ⟨.array 3 (.uint 8), txt "uint8[-3]", [], []⟩ ∧
    newType U (.mk name (txt "uint8[]3") []) = .ok ⟨.array 3 (.uint 8), txt "uint8[]3", [], []⟩ :=
  ⟨rfl, rfl, rfl, rfl, rfl, rfl⟩

/-- **C124, refuted**: a struct with a field named `_1` or `$a`, both names of Solidity, is refused. -/
theorem C124_name_refuted (U : Bytes → Bool) (name : Bytes) :
    newType U ((Sol.tuple [txt "_1"] [.bool]).arg name) = .err ∧ newType U ((Sol.tuple [txt "$a"] [.bool]).arg name) = .err := by
  refine ⟨?_, ?_⟩ <;> rfl

/-- **C124, refuted**: a struct with an array that does not fit in memory makes `NewType` panic; the same array alone is accepted. -/
theorem C124_panic_refuted (U : Bytes → Bool) (name : Bytes) :
    newType U (.mk name (txt "tuple") [.mk (txt "a") (txt "uint256[2305843009213693952]") []]) = .panic ∧
    newType U (.mk name (txt "uint256[2305843009213693952]") []) =
      .ok ⟨.array 2305843009213693952 (.uint 256), txt "uint256[2305843009213693952]", [], []⟩ := by
  have h : ∀ name, newType U (.mk name (txt "uint256[2305843009213693952]") []) =
      .ok ⟨.array 2305843009213693952 (.uint 256), txt "uint256[2305843009213693952]", [], []⟩ := fun _ => rfl
  refine ⟨?_, h name⟩
  have h2 : newFields U [.mk (txt "a") (txt "uint256[2305843009213693952]") []] [] = .panic := by
    rw [newFields, h (txt "a")]
    have e : resolveName 1 (toCamelCase (txt "a")) (fun s => ([] : List Bytes).contains s) = some [65] := rfl
    simp only [Res.bind, List.length_nil, Nat.zero_add]
    rw [if_neg (by decide), e]
    have g : goType (.array 2305843009213693952 (.uint 256)) = none := by rw [goType, goType]; rfl
    have v : isValidFieldName U [65] = true := rfl
    simp only [g, v, Bool.not_true, Bool.false_eq_true, if_false]
  have h3 : newType U (.mk name (txt "tuple") [.mk (txt "a") (txt "uint256[2305843009213693952]") []]) =
    Res.bind (newFields U [.mk (txt "a") (txt "uint256[2305843009213693952]") []] []) tupleInfo := rfl
  rw [h3, h2, Res.bind]

/-! ### Signatures -/

/-- What can stand behind the text of a type. -/
def Follow (x : Bytes) : Prop := ∀ c, x.head? = some c → c = 91 ∨ c = 44 ∨ c = 41

def dimText : Option Nat → Bytes
  | none => [91, 93]
  | some n => 91 :: dec n ++ [93]

def dimsText (l : List (Option Nat)) : Bytes := l.flatMap dimText

def wrap (t : Ty) (l : List (Option Nat)) : Ty :=
  l.foldl (fun t d => match d with | none => .slice t | some n => .array n t) t

/-- One of two types is the other with dimensions behind it. -/
def Rel (t t' : Ty) (x x' : Bytes) : Prop :=
  (∃ l, t' = wrap t l ∧ x = dimsText l ++ x') ∨ (∃ l, t = wrap t' l ∧ x' = dimsText l ++ x)

theorem Rel.symm {t t' : Ty} {x x' : Bytes} (h : Rel t t' x x') : Rel t' t x' x := Or.symm h

theorem dimText_inj {d d' : Option Nat} {x x' : Bytes} (h : dimText d ++ x = dimText d' ++ x') : d = d' ∧ x = x' := by
  have hsp : ∀ n y, (dec n ++ 93 :: y).takeWhile isDigit = dec n ∧ (dec n ++ 93 :: y).dropWhile isDigit = 93 :: y := fun n y =>
    span_app isDigit (dec n) (93 :: y) (dec_digits n) (by intro c hc; simp at hc; subst hc; decide)
  cases d with
  | none =>
    cases d' with
    | none => simpa [dimText] using h
    | some n =>
      exfalso
      simp only [dimText, List.cons_append, List.nil_append, List.append_assoc, List.cons.injEq, true_and] at h
      have := (hsp n x').1
      rw [← h] at this
      exact dec_ne_nil n (by rw [← this]; simp [isDigit])
  | some n =>
    cases d' with
    | none =>
      exfalso
      simp only [dimText, List.cons_append, List.nil_append, List.append_assoc, List.cons.injEq, true_and] at h
      have := (hsp n x).1
      rw [h] at this
      exact dec_ne_nil n (by rw [← this]; simp [isDigit])
    | some m =>
      simp only [dimText, List.cons_append, List.nil_append, List.append_assoc, List.cons.injEq, true_and] at h
      have h1 := (hsp n x).1
      have h2 := (hsp n x).2
      rw [h, (hsp m x').1] at h1
      rw [h, (hsp m x').2] at h2
      exact ⟨by rw [dec_inj h1], by simpa using h2.symm⟩

theorem wrap_snoc (t : Ty) (l : List (Option Nat)) (d : Option Nat) : wrap t (l ++ [d]) = wrap (wrap t l) [d] := by
  simp [wrap, List.foldl_append]

theorem wrap_cons (t : Ty) (d : Option Nat) (l : List (Option Nat)) : wrap t (d :: l) = wrap (wrap t [d]) l := by
  simp [wrap]

theorem Rel.more {t t' : Ty} {x x' : Bytes} (d : Option Nat) (h : Rel t t' (dimText d ++ x) x') : Rel (wrap t [d]) t' x x' := by
  rcases h with ⟨l, h1, h2⟩ | ⟨l, h1, h2⟩
  · cases l with
    | nil =>
      right
      refine ⟨[d], ?_, ?_⟩
      · rw [h1]; rfl
      · simp only [dimsText, List.flatMap_nil, List.nil_append] at h2
        simp [dimsText, h2]
    | cons d' l =>
      left
      simp only [dimsText, List.flatMap_cons, List.append_assoc] at h2
      obtain ⟨rfl, h3⟩ := dimText_inj h2
      exact ⟨l, by rw [h1, wrap_cons], h3⟩
  · right
    exact ⟨l ++ [d], by rw [wrap_snoc, ← h1], by simp [dimsText, h2]⟩

def Sol.isBase : Sol → Bool
  | .slice _ => false
  | .array _ _ => false
  | _ => true

theorem slice_ty (e : Sol) : (Sol.slice e).ty = wrap e.ty [none] := by rw [Sol.ty]; rfl
theorem array_ty (n : Nat) (e : Sol) : (Sol.array n e).ty = wrap e.ty [some n] := by rw [Sol.ty]; rfl
theorem slice_sig (e : Sol) (x : Bytes) : (Sol.slice e).sig ++ x = e.sig ++ (dimText none ++ x) := by
  rw [Sol.sig, List.append_assoc]; rfl
theorem array_sig (n : Nat) (e : Sol) (x : Bytes) : (Sol.array n e).sig ++ x = e.sig ++ (dimText (some n) ++ x) := by
  rw [Sol.sig, List.append_assoc]; rfl
theorem follow_dim (d : Option Nat) (x : Bytes) : Follow (dimText d ++ x) := by
  intro c hc
  cases d <;> simp [dimText] at hc <;> exact Or.inl hc.symm

theorem rel_lift (s : Sol) (hB : ∀ s' : Sol, s'.isBase = true → ∀ x x', Follow x → Follow x' → s.sig ++ x = s'.sig ++ x' →
    s.ty = s'.ty ∧ x = x') : ∀ (s' : Sol) (x x' : Bytes), Follow x → Follow x' → s.sig ++ x = s'.sig ++ x' → Rel s.ty s'.ty x x'
  | .slice e, x, x', hx, _, h => by
    rw [slice_sig] at h
    rw [slice_ty]
    exact ((rel_lift s hB e x _ hx (follow_dim _ _) h).symm.more none).symm
  | .array n e, x, x', hx, _, h => by
    rw [array_sig] at h
    rw [array_ty]
    exact ((rel_lift s hB e x _ hx (follow_dim _ _) h).symm.more (some n)).symm
  | .uint n, x, x', hx, hx', h => Or.inl ⟨[], (hB (.uint n) rfl x x' hx hx' h).1.symm, (hB (.uint n) rfl x x' hx hx' h).2⟩
  | .int n, x, x', hx, hx', h => Or.inl ⟨[], (hB (.int n) rfl x x' hx hx' h).1.symm, (hB (.int n) rfl x x' hx hx' h).2⟩
  | .fixed n, x, x', hx, hx', h => Or.inl ⟨[], (hB (.fixed n) rfl x x' hx hx' h).1.symm, (hB (.fixed n) rfl x x' hx hx' h).2⟩
  | .bool, x, x', hx, hx', h => Or.inl ⟨[], (hB .bool rfl x x' hx hx' h).1.symm, (hB .bool rfl x x' hx hx' h).2⟩
  | .string, x, x', hx, hx', h => Or.inl ⟨[], (hB .string rfl x x' hx hx' h).1.symm, (hB .string rfl x x' hx hx' h).2⟩
  | .bytes, x, x', hx, hx', h => Or.inl ⟨[], (hB .bytes rfl x x' hx hx' h).1.symm, (hB .bytes rfl x x' hx hx' h).2⟩
  | .address, x, x', hx, hx', h => Or.inl ⟨[], (hB .address rfl x x' hx hx' h).1.symm, (hB .address rfl x x' hx hx' h).2⟩
  | .function, x, x', hx, hx', h => Or.inl ⟨[], (hB .function rfl x x' hx hx' h).1.symm, (hB .function rfl x x' hx hx' h).2⟩
  | .tuple ns l, x, x', hx, hx', h => Or.inl ⟨[], (hB (.tuple ns l) rfl x x' hx hx' h).1.symm, (hB (.tuple ns l) rfl x x' hx hx' h).2⟩

/-- Word and digits of an elementary type. -/
def Sol.parts : Sol → Option (Bytes × Bytes)
  | .uint n => some (txt "uint", dec n)
  | .int n => some (txt "int", dec n)
  | .bool => some (txt "bool", [])
  | .string => some (txt "string", [])
  | .bytes => some (txt "bytes", [])
  | .address => some (txt "address", [])
  | .fixed n => some (txt "bytes", dec n)
  | .function => some (txt "function", [])
  | _ => none

theorem parts_spec (s : Sol) (w d : Bytes) (h : s.parts = some (w, d)) : s.sig = w ++ d ∧ (∀ x ∈ w, isAlpha x = true) ∧
    (∀ x ∈ d, isDigit x = true) ∧ ∃ c r, w = c :: r := by
  cases s <;> simp only [Sol.parts, Option.some.injEq, Prod.mk.injEq, reduceCtorEq] at h <;> obtain ⟨rfl, rfl⟩ := h <;>
    refine ⟨?_, by decide, ?_, ⟨_, _, rfl⟩⟩ <;> first | exact dec_digits _ | simp [Sol.sig]

theorem parts_inj (s s' : Sol) (p : Bytes × Bytes) (h : s.parts = some p) (h' : s'.parts = some p) : s.ty = s'.ty := by
  rw [← h'] at h
  have hd := dec_ne_nil
  cases s <;> cases s' <;> simp only [Sol.parts, Option.some.injEq, Prod.mk.injEq, reduceCtorEq] at h <;>
    first
      | rfl
      | (exact absurd h.1 (by decide))
      | (rw [dec_inj h.2])
      | (exact absurd h.2 (hd _))
      | (exact absurd h.2.symm (hd _))
      | (cases h')

theorem alnum_stop {x : Bytes} (hx : Follow x) : ∀ c, x.head? = some c → isAlpha c = false ∧ isDigit c = false := by
  intro c hc
  rcases hx c hc with rfl | rfl | rfl <;> decide

theorem elem_base (s s' : Sol) (p p' : Bytes × Bytes) (h : s.parts = some p) (h' : s'.parts = some p') (x x' : Bytes) (hx : Follow x)
    (hx' : Follow x') (e : s.sig ++ x = s'.sig ++ x') : s.ty = s'.ty ∧ x = x' := by
  obtain ⟨w, d⟩ := p
  obtain ⟨w', d'⟩ := p'
  obtain ⟨h1, h2, h3, _⟩ := parts_spec s w d h
  obtain ⟨g1, g2, g3, _⟩ := parts_spec s' w' d' h'
  have key : ∀ (w d x : Bytes), (∀ c ∈ w, isAlpha c = true) → (∀ c ∈ d, isDigit c = true) → Follow x →
      (w ++ (d ++ x)).takeWhile isAlpha = w ∧ ((w ++ (d ++ x)).dropWhile isAlpha).takeWhile isDigit = d ∧
        ((w ++ (d ++ x)).dropWhile isAlpha).dropWhile isDigit = x := by
    intro w d x hw hd hx
    have hf : ∀ c, (d ++ x).head? = some c → isAlpha c = false := by
      intro c hc
      cases d with
      | nil => rw [List.nil_append] at hc; exact (alnum_stop hx c hc).1
      | cons y d => simp only [List.cons_append, List.head?_cons, Option.some.injEq] at hc; subst hc; exact digit_not_alpha _ (hd _ (by simp))
    obtain ⟨a, b⟩ := span_app isAlpha w (d ++ x) hw hf
    rw [a, b]
    obtain ⟨a', b'⟩ := span_app isDigit d x hd (fun c hc => (alnum_stop hx c hc).2)
    exact ⟨rfl, a', b'⟩
  rw [h1, g1, List.append_assoc, List.append_assoc] at e
  obtain ⟨a1, a2, a3⟩ := key w d x h2 h3 hx
  obtain ⟨b1, b2, b3⟩ := key w' d' x' g2 g3 hx'
  rw [e] at a1 a2 a3
  rw [a1] at b1
  rw [a2] at b2
  rw [a3] at b3
  subst b1 b2
  exact ⟨parts_inj s s' _ h h', b3⟩

/-- The first character of a type. -/
theorem sig_first : ∀ s : Sol, ∃ c r, s.sig = c :: r ∧ (isAlpha c = true ∨ c = 40)
  | .slice e => by
    obtain ⟨c, r, h1, h2⟩ := sig_first e
    exact ⟨c, r ++ txt "[]", by rw [Sol.sig, h1]; rfl, h2⟩
  | .array n e => by
    obtain ⟨c, r, h1, h2⟩ := sig_first e
    exact ⟨c, r ++ (txt "[" ++ dec n ++ txt "]"), by rw [Sol.sig, h1]; rfl, h2⟩
  | .tuple ns l => ⟨40, sigs l ++ txt ")", by rw [Sol.sig]; rfl, Or.inr rfl⟩
  | .uint n => ⟨117, _, by rw [Sol.sig]; rfl, by decide⟩
  | .int n => ⟨105, _, by rw [Sol.sig]; rfl, by decide⟩
  | .fixed n => ⟨98, _, by rw [Sol.sig]; rfl, by decide⟩
  | .bool => ⟨98, _, by rw [Sol.sig]; rfl, by decide⟩
  | .string => ⟨115, _, by rw [Sol.sig]; rfl, by decide⟩
  | .bytes => ⟨98, _, by rw [Sol.sig]; rfl, by decide⟩
  | .address => ⟨97, _, by rw [Sol.sig]; rfl, by decide⟩
  | .function => ⟨102, _, by rw [Sol.sig]; rfl, by decide⟩

theorem parts_or_tuple (s : Sol) (h : s.isBase = true) : (∃ p, s.parts = some p) ∨ ∃ ns l, s = .tuple ns l := by
  cases s <;> first | (exact Or.inl ⟨_, rfl⟩) | (exact Or.inr ⟨_, _, rfl⟩) | (cases h)

theorem parts_first (s : Sol) (p : Bytes × Bytes) (h : s.parts = some p) : ∃ c r, s.sig = c :: r ∧ isAlpha c = true := by
  obtain ⟨h1, h2, _, c, r, h4⟩ := parts_spec s p.1 p.2 h
  exact ⟨c, r ++ p.2, by rw [h1, h4]; rfl, h2 c (by rw [h4]; simp)⟩

theorem elem_lift (s : Sol) (p : Bytes × Bytes) (hp : s.parts = some p) (s' : Sol) (hb : s'.isBase = true) (x x' : Bytes) (hx : Follow x)
    (hx' : Follow x') (e : s.sig ++ x = s'.sig ++ x') : s.ty = s'.ty ∧ x = x' := by
  rcases parts_or_tuple s' hb with ⟨p', hp'⟩ | ⟨ns, l, rfl⟩
  · exact elem_base s s' p p' hp hp' x x' hx hx' e
  · exfalso
    obtain ⟨c, r, h1, h2⟩ := parts_first s p hp
    rw [h1, Sol.sig] at e
    have : c = 40 := by
      have := congrArg List.head? e
      simpa [txt] using this
    subst this
    exact absurd h2 (by decide)

theorem moreSigs_follow (l : List Sol) (x : Bytes) : Follow (moreSigs l ++ 41 :: x) := by
  intro c hc
  cases l with
  | nil => simp [moreSigs] at hc; exact Or.inr (Or.inr hc.symm)
  | cons s l => simp [moreSigs, txt] at hc; exact Or.inr (Or.inl hc.symm)

theorem rel_stop {t t' : Ty} {x x' : Bytes} (h : Rel t t' x x') (hx : ∀ c, x.head? = some c → c ≠ 91)
    (hx' : ∀ c, x'.head? = some c → c ≠ 91) : t = t' ∧ x = x' := by
  have key : ∀ (l : List (Option Nat)) (y z : Bytes), y = dimsText l ++ z → (∀ c, y.head? = some c → c ≠ 91) → l = [] := by
    intro l y z e hy
    cases l with
    | nil => rfl
    | cons d l =>
      exfalso
      have : y.head? = some 91 := by rw [e]; cases d <;> rfl
      exact hy 91 this rfl
  rcases h with ⟨l, h1, h2⟩ | ⟨l, h1, h2⟩
  · have := key l x x' h2 hx
    subst this
    exact ⟨h1.symm, by simpa [dimsText] using h2⟩
  · have := key l x' x h2 hx'
    subst this
    exact ⟨h1, by simpa [dimsText] using h2.symm⟩

theorem follow41 (l : List Sol) (x : Bytes) : ∀ c, (moreSigs l ++ 41 :: x).head? = some c → c ≠ 91 := by
  intro c hc
  cases l with
  | nil => simp [moreSigs] at hc; subst hc; decide
  | cons s l => simp [moreSigs, txt] at hc; subst hc; decide

mutual
theorem sig_rel : ∀ (s s' : Sol) (x x' : Bytes), Follow x → Follow x' → s.sig ++ x = s'.sig ++ x' → Rel s.ty s'.ty x x'
  | .slice e, s', x, x', _, hx', h => by
    rw [slice_sig] at h
    rw [slice_ty]
    exact (sig_rel e s' _ x' (follow_dim _ _) hx' h).more none
  | .array n e, s', x, x', _, hx', h => by
    rw [array_sig] at h
    rw [array_ty]
    exact (sig_rel e s' _ x' (follow_dim _ _) hx' h).more (some n)
  | .uint n, s', x, x', hx, hx', h => rel_lift _ (elem_lift (.uint n) _ rfl) s' x x' hx hx' h
  | .int n, s', x, x', hx, hx', h => rel_lift _ (elem_lift (.int n) _ rfl) s' x x' hx hx' h
  | .fixed n, s', x, x', hx, hx', h => rel_lift _ (elem_lift (.fixed n) _ rfl) s' x x' hx hx' h
  | .bool, s', x, x', hx, hx', h => rel_lift _ (elem_lift .bool _ rfl) s' x x' hx hx' h
  | .string, s', x, x', hx, hx', h => rel_lift _ (elem_lift .string _ rfl) s' x x' hx hx' h
  | .bytes, s', x, x', hx, hx', h => rel_lift _ (elem_lift .bytes _ rfl) s' x x' hx hx' h
  | .address, s', x, x', hx, hx', h => rel_lift _ (elem_lift .address _ rfl) s' x x' hx hx' h
  | .function, s', x, x', hx, hx', h => rel_lift _ (elem_lift .function _ rfl) s' x x' hx hx' h
  | .tuple ns l, s', x, x', hx, hx', h => by
    refine rel_lift (.tuple ns l) ?_ s' x x' hx hx' h
    intro s' hb x x' hx hx' e
    rcases parts_or_tuple s' hb with ⟨p', hp'⟩ | ⟨ns', l', rfl⟩
    · exact (fun h => ⟨h.1.symm, h.2.symm⟩) (elem_lift s' p' hp' (.tuple ns l) rfl x' x hx' hx e.symm)
    · rw [Sol.sig, Sol.sig] at e
      have e' : sigs l ++ 41 :: x = sigs l' ++ 41 :: x' := by simpa [txt] using e
      obtain ⟨h1, h2⟩ := sigs_inj l l' x x' e'
      rw [Sol.ty, Sol.ty, h1]
      exact ⟨rfl, h2⟩
theorem sigs_inj : ∀ (l l' : List Sol) (x x' : Bytes), sigs l ++ 41 :: x = sigs l' ++ 41 :: x' → tys l = tys l' ∧ x = x'
  | [], [], x, x', h => ⟨rfl, by simpa [sigs] using h⟩
  | [], s' :: l', x, x', h => by
    exfalso
    obtain ⟨c, r, h1, h2⟩ := sig_first s'
    rw [sigs, sigs, h1] at h
    simp only [List.nil_append, List.cons_append, List.cons.injEq] at h
    rw [← h.1] at h2
    revert h2
    decide
  | s :: l, [], x, x', h => by
    exfalso
    obtain ⟨c, r, h1, h2⟩ := sig_first s
    rw [sigs, sigs, h1] at h
    simp only [List.nil_append, List.cons_append, List.cons.injEq] at h
    rw [h.1] at h2
    revert h2
    decide
  | s :: l, s' :: l', x, x', h => by
    rw [sigs, sigs, List.append_assoc, List.append_assoc] at h
    obtain ⟨h1, h2⟩ := rel_stop (sig_rel s s' _ _ (moreSigs_follow l x) (moreSigs_follow l' x') h) (follow41 l x) (follow41 l' x')
    obtain ⟨h3, h4⟩ := moreSigs_inj l l' x x' h2
    exact ⟨by rw [tys, tys, h1, h3], h4⟩
theorem moreSigs_inj : ∀ (l l' : List Sol) (x x' : Bytes), moreSigs l ++ 41 :: x = moreSigs l' ++ 41 :: x' → tys l = tys l' ∧ x = x'
  | [], [], x, x', h => ⟨rfl, by simpa [moreSigs] using h⟩
  | [], s' :: l', x, x', h => by simp [moreSigs, txt] at h
  | s :: l, [], x, x', h => by simp [moreSigs, txt] at h
  | s :: l, s' :: l', x, x', h => by
    rw [moreSigs, moreSigs] at h
    have h' : s.sig ++ (moreSigs l ++ 41 :: x) = s'.sig ++ (moreSigs l' ++ 41 :: x') := by simpa [txt] using h
    obtain ⟨h1, h2⟩ := rel_stop (sig_rel s s' _ _ (moreSigs_follow l x) (moreSigs_follow l' x') h') (follow41 l x) (follow41 l' x')
    obtain ⟨h3, h4⟩ := moreSigs_inj l l' x x' h2
    exact ⟨by rw [tys, tys, h1, h3], h4⟩
end

mutual
theorem sig_of_ty : ∀ s s' : Sol, s.ty = s'.ty → s.sig = s'.sig
  | .slice e, s', h => by
    cases s' <;> simp only [Sol.ty, Ty.slice.injEq, reduceCtorEq] at h
    rw [Sol.sig, Sol.sig, sig_of_ty e _ h]
  | .array n e, s', h => by
    cases s' <;> simp only [Sol.ty, Ty.array.injEq, reduceCtorEq] at h
    rw [Sol.sig, Sol.sig, sig_of_ty e _ h.2, h.1]
  | .uint n, s', h => by cases s' <;> simp only [Sol.ty, Ty.uint.injEq, reduceCtorEq] at h; rw [h]
  | .int n, s', h => by cases s' <;> simp only [Sol.ty, Ty.int.injEq, reduceCtorEq] at h; rw [h]
  | .fixed n, s', h => by cases s' <;> simp only [Sol.ty, Ty.fixed.injEq, reduceCtorEq] at h; rw [h]
  | .bool, s', h => by cases s' <;> simp only [Sol.ty, reduceCtorEq] at h; rfl
  | .string, s', h => by cases s' <;> simp only [Sol.ty, reduceCtorEq] at h; rfl
  | .bytes, s', h => by cases s' <;> simp only [Sol.ty, reduceCtorEq] at h; rfl
  | .address, s', h => by cases s' <;> simp only [Sol.ty, reduceCtorEq] at h; rfl
  | .function, s', h => by cases s' <;> simp only [Sol.ty, reduceCtorEq] at h; rfl
  | .tuple ns l, s', h => by
    cases s' <;> simp only [Sol.ty, Ty.tuple.injEq, reduceCtorEq] at h
    rw [Sol.sig, Sol.sig, sigs_eq, sigs_eq, sig_map l _ h]
theorem sig_map : ∀ l l' : List Sol, tys l = tys l' → l.map Sol.sig = l'.map Sol.sig
  | [], [], _ => rfl
  | [], _ :: _, h => by simp [tys] at h
  | _ :: _, [], h => by simp [tys] at h
  | s :: l, s' :: l', h => by
    simp only [tys, List.cons.injEq] at h
    rw [List.map_cons, List.map_cons, sig_of_ty s s' h.1, sig_map l l' h.2]
end

/-- **C124.**  The canonical text says exactly what the type is: two types have the same text only if they are the same type, names
of fields apart; and the same holds for lists of types in parentheses. -/
theorem C124_text (s s' : Sol) : s.sig = s'.sig ↔ s.ty = s'.ty := by
  refine ⟨fun h => ?_, sig_of_ty s s'⟩
  have hn : Follow [] := by intro c hc; simp at hc
  exact (rel_stop (sig_rel s s' [] [] hn hn (by rw [h])) (by simp) (by simp)).1

theorem C124_texts (l l' : List Sol) : sigs l = sigs l' ↔ tys l = tys l' :=
  ⟨fun h => (sigs_inj l l' [] [] (by rw [h])).1, fun h => by rw [sigs_eq, sigs_eq, sig_map l l' h]⟩

/-! ### Types from selectors -/

open Selector (STy parseSelector printSelector printFields moreText argList dummyName)

mutual
/-- The written form of a type, as the parser of selectors knows it: dimensions behind elementary types, tuples with `[]`. -/
def Sol.sty : Sol → Option STy
  | .uint n => some (.elem (txt "uint" ++ dec n) [])
  | .int n => some (.elem (txt "int" ++ dec n) [])
  | .bool => some (.elem (txt "bool") [])
  | .string => some (.elem (txt "string") [])
  | .bytes => some (.elem (txt "bytes") [])
  | .address => some (.elem (txt "address") [])
  | .fixed n => some (.elem (txt "bytes" ++ dec n) [])
  | .function => some (.elem (txt "function") [])
  | .slice e =>
    match e.sty with
    | some (.elem t d) => some (.elem t (d ++ [[]]))
    | some (.tuple l false) => some (.tuple l true)
    | _ => none
  | .array n e =>
    match e.sty with
    | some (.elem t d) => some (.elem t (d ++ [dec n]))
    | _ => none
  | .tuple _ l =>
    match stys l with
    | some (t :: ts) => some (.tuple (t :: ts) false)
    | _ => none
def stys : List Sol → Option (List STy)
  | [] => some []
  | s :: l =>
    match s.sty, stys l with
    | some t, some ts => some (t :: ts)
    | _, _ => none
end

/-- `name0`, `name1`, … -/
def dummies : Nat → Nat → List Bytes
  | _, 0 => []
  | i, n + 1 => dummyName i :: dummies (i + 1) n

mutual
/-- The type with the names that the parser gives to the fields. -/
def Sol.dummy : Sol → Sol
  | .slice e => .slice e.dummy
  | .array n e => .array n e.dummy
  | .tuple _ l => .tuple (dummies 0 l.length) (dummyL l)
  | s => s
def dummyL : List Sol → List Sol
  | [] => []
  | s :: l => s.dummy :: dummyL l
end

theorem dummies_length (i n : Nat) : (dummies i n).length = n := by
  induction n generalizing i with
  | zero => rfl
  | succ n ih => simp [dummies, ih]

theorem dummyName_good (i : Nat) : GoodName (dummyName i) := by
  refine ⟨0, 110, [97, 109, 101] ++ dec i, rfl, by simp only [Selector.Letter]; decide, ?_⟩
  intro x hx
  rcases List.mem_append.mp hx with hx | hx
  · refine Or.inl ?_
    rw [← (Selector.C80_classes x).2.1]
    clear * - hx
    revert x
    decide
  · exact Or.inr (Or.inl ((Selector.C80_classes x).1.mp (dec_digits i x hx)))

theorem dummies_good (i n : Nat) : ∀ x ∈ dummies i n, GoodName x := by
  induction n generalizing i with
  | zero => intro x hx; simp [dummies] at hx
  | succ n ih =>
    intro x hx
    rcases List.mem_cons.mp hx with rfl | hx
    · exact dummyName_good i
    · exact ih _ x hx

theorem dummyL_length (l : List Sol) : (dummyL l).length = l.length := by
  induction l with
  | nil => rfl
  | cons s l ih => simp [dummyL, ih]

mutual
theorem dummy_ty : ∀ s : Sol, s.dummy.ty = s.ty
  | .slice e => by rw [Sol.dummy, Sol.ty, Sol.ty, dummy_ty e]
  | .array n e => by rw [Sol.dummy, Sol.ty, Sol.ty, dummy_ty e]
  | .tuple _ l => by rw [Sol.dummy, Sol.ty, Sol.ty, dummyL_tys l]
  | .uint _ => rfl
  | .int _ => rfl
  | .fixed _ => rfl
  | .bool => rfl
  | .string => rfl
  | .bytes => rfl
  | .address => rfl
  | .function => rfl
theorem dummyL_tys : ∀ l : List Sol, tys (dummyL l) = tys l
  | [] => rfl
  | s :: l => by rw [dummyL, tys, tys, dummy_ty s, dummyL_tys l]
end

mutual
theorem dummy_valid : ∀ s : Sol, s.Valid → s.dummy.Valid
  | .slice e, h => by simp only [Sol.dummy, Sol.Valid] at h ⊢; exact dummy_valid e h
  | .array n e, h => by simp only [Sol.dummy, Sol.Valid] at h ⊢; exact ⟨h.1, dummy_valid e h.2⟩
  | .tuple _ l, h => by
    simp only [Sol.dummy, Sol.Valid, dummies_length, dummyL_length, dummyL_tys] at h ⊢
    exact ⟨trivial, dummies_good 0 _, dummyL_valid l h.2.2.1, h.2.2.2⟩
  | .uint _, h => h
  | .int _, h => h
  | .fixed _, h => h
  | .bool, h => h
  | .string, h => h
  | .bytes, h => h
  | .address, h => h
  | .function, h => h
theorem dummyL_valid : ∀ l : List Sol, ValidSols l → ValidSols (dummyL l)
  | [], h => h
  | s :: l, h => by rw [dummyL, ValidSols]; rw [ValidSols] at h; exact ⟨dummy_valid s h.1, dummyL_valid l h.2⟩
end

/-- What the written form has to do with the type. -/
def Written (s : Sol) (t : STy) : Prop :=
  t.print = s.sig ∧ t.Valid ∧
    match t with
    | .elem tok dims => s.text = tok ++ Selector.printDims dims ∧ s.dummy.comps = []
    | .tuple l sl => s.text = tupleText ++ (if sl then [91, 93] else []) ∧ s.dummy.comps = argList 0 l

theorem written_elem (s : Sol) (tok : Bytes) (ht : s.text = tok) (hs : s.sig = tok) (hc : s.dummy.comps = [])
    (hw : Selector.isWord false tok) : Written s (.elem tok []) := by
  refine ⟨?_, ?_, ?_, hc⟩
  · rw [STy.print, hs]; simp [Selector.printDims]
  · rw [STy.Valid]; exact ⟨hw, by simp⟩
  · rw [ht]; simp [Selector.printDims]

theorem word_dec (w : Bytes) (d : Bytes) (hw : ∃ c r, w = c :: r) (ha : ∀ x ∈ w, isAlpha x = true) (hd : ∀ x ∈ d, isDigit x = true) :
    Selector.isWord false (w ++ d) := by
  obtain ⟨c, r, rfl⟩ := hw
  refine ⟨c, r ++ d, rfl, Or.inl ((Selector.C80_classes c).2.1.mp (ha c (by simp))), ?_⟩
  intro x hx
  rcases List.mem_append.mp hx with hx | hx
  · exact Or.inl ((Selector.C80_classes x).2.1.mp (ha x (by simp [hx])))
  · exact Or.inr (Or.inl ((Selector.C80_classes x).1.mp (hd x hx)))

theorem printDims_snoc (dims : List Bytes) (d : Bytes) : Selector.printDims (dims ++ [d]) = Selector.printDims dims ++ (91 :: d ++ [93]) := by
  simp [Selector.printDims]

theorem text_dummy : ∀ s : Sol, s.dummy.text = s.text
  | .slice e => by rw [Sol.dummy, Sol.text, Sol.text, text_dummy e]
  | .array n e => by rw [Sol.dummy, Sol.text, Sol.text, text_dummy e]
  | .tuple _ l => rfl
  | .uint _ => rfl
  | .int _ => rfl
  | .fixed _ => rfl
  | .bool => rfl
  | .string => rfl
  | .bytes => rfl
  | .address => rfl
  | .function => rfl

theorem arg_of_written (s : Sol) (t : STy) (h : Written s t) (i : Nat) : STy.arg i t = s.dummy.arg (dummyName i) := by
  obtain ⟨_, _, h⟩ := h
  cases t with
  | elem tok dims => rw [STy.arg, Sol.arg, text_dummy, h.1, h.2]
  | tuple l sl => rw [STy.arg, Sol.arg, text_dummy, h.1, h.2]

mutual
theorem sty_written : ∀ (s : Sol) (t : STy), s.sty = some t → Written s t
  | .uint n, t, h => by
    cases h
    exact written_elem _ _ rfl (by rw [Sol.sig]) rfl (word_dec _ _ ⟨_, _, rfl⟩ (by decide) (dec_digits n))
  | .int n, t, h => by
    cases h
    exact written_elem _ _ rfl (by rw [Sol.sig]) rfl (word_dec _ _ ⟨_, _, rfl⟩ (by decide) (dec_digits n))
  | .fixed n, t, h => by
    cases h
    exact written_elem _ _ rfl (by rw [Sol.sig]) rfl (word_dec _ _ ⟨_, _, rfl⟩ (by decide) (dec_digits n))
  | .bool, t, h => by
    cases h
    exact written_elem _ _ rfl rfl rfl (word_dec (txt "bool") [] ⟨_, _, rfl⟩ (by decide) (by simp))
  | .string, t, h => by
    cases h
    exact written_elem _ _ rfl rfl rfl (word_dec (txt "string") [] ⟨_, _, rfl⟩ (by decide) (by simp))
  | .bytes, t, h => by
    cases h
    exact written_elem _ _ rfl rfl rfl (word_dec (txt "bytes") [] ⟨_, _, rfl⟩ (by decide) (by simp))
  | .address, t, h => by
    cases h
    exact written_elem _ _ rfl rfl rfl (word_dec (txt "address") [] ⟨_, _, rfl⟩ (by decide) (by simp))
  | .function, t, h => by
    cases h
    exact written_elem _ _ rfl rfl rfl (word_dec (txt "function") [] ⟨_, _, rfl⟩ (by decide) (by simp))
  | .slice e, t, h => by
    rw [Sol.sty] at h
    split at h
    · next tok d he =>
      cases h
      obtain ⟨h1, h2, h3, h4⟩ := sty_written e _ he
      rw [STy.print] at h1
      rw [STy.Valid] at h2
      refine ⟨?_, ?_, ?_, ?_⟩
      · rw [STy.print, printDims_snoc, Sol.sig, ← h1, pair_txt]; simp
      · rw [STy.Valid]
        refine ⟨h2.1, ?_⟩
        intro x hx
        rcases List.mem_append.mp hx with hx | hx
        · exact h2.2 x hx
        · simp only [List.mem_singleton] at hx; subst hx; simp
      · rw [Sol.text, h3, printDims_snoc, pair_txt]; simp
      · rw [Sol.dummy, Sol.comps, h4]
    · next l he =>
      cases h
      obtain ⟨h1, h2, h3, h4⟩ := sty_written e _ he
      rw [STy.print] at h1
      rw [STy.Valid] at h2
      refine ⟨?_, ?_, ?_, ?_⟩
      · rw [STy.print, Sol.sig, ← h1, pair_txt]; simp
      · rw [STy.Valid]; exact h2
      · rw [Sol.text, h3, pair_txt]; simp
      · rw [Sol.dummy, Sol.comps, h4]
    · cases h
  | .array n e, t, h => by
    rw [Sol.sty] at h
    split at h
    · next tok d he =>
      cases h
      obtain ⟨h1, h2, h3, h4⟩ := sty_written e _ he
      rw [STy.print] at h1
      rw [STy.Valid] at h2
      refine ⟨?_, ?_, ?_, ?_⟩
      · rw [STy.print, printDims_snoc, Sol.sig, ← h1, open_txt, close_txt]; simp
      · rw [STy.Valid]
        refine ⟨h2.1, ?_⟩
        intro x hx
        rcases List.mem_append.mp hx with hx | hx
        · exact h2.2 x hx
        · simp only [List.mem_singleton] at hx
          subst hx
          exact fun c hc => (Selector.C80_classes c).1.mp (dec_digits n c hc)
      · rw [Sol.text, h3, printDims_snoc, open_txt, close_txt]; simp
      · rw [Sol.dummy, Sol.comps, h4]
    · cases h
  | .tuple names l, t, h => by
    rw [Sol.sty] at h
    split at h
    · next t' ts he =>
      cases h
      obtain ⟨h1, h2, h3, _⟩ := stys_written l (t' :: ts) he
      refine ⟨?_, ?_, ?_, ?_⟩
      · rw [STy.print, Sol.sig, h1]; simp [txt]
      · rw [STy.Valid]; exact ⟨by simp, h2⟩
      · rw [Sol.text]; rfl
      · rw [Sol.dummy, Sol.comps, h3 0]
    · cases h
theorem stys_written : ∀ (l : List Sol) (ts : List STy), stys l = some ts → printFields ts = sigs l ∧ Selector.ValidL ts ∧
    (∀ i, compList (dummies i l.length) (dummyL l) = argList i ts) ∧ moreText ts = moreSigs l
  | [], ts, h => by cases h; exact ⟨rfl, trivial, fun _ => rfl, rfl⟩
  | s :: l, ts, h => by
    rw [stys] at h
    split at h
    · next t ts' h1 h2 =>
      cases h
      have hw := sty_written s t h1
      obtain ⟨i1, i2, i3, i4⟩ := stys_written l ts' h2
      refine ⟨?_, ?_, ?_, ?_⟩
      · rw [Selector.printFields_cons, sigs, hw.1, i4]
      · rw [Selector.ValidL]; exact ⟨hw.2.1, i2⟩
      · intro i
        rw [List.length_cons, dummies, dummyL, compList, argList, i3, arg_of_written s t hw i, Sol.arg]
      · rw [moreText, moreSigs, hw.1, i4]; rfl
    · cases h
end

theorem read_all (U : Bytes → Bool) : ∀ (l : List Sol) (ts : List STy) (i : Nat), stys l = some ts → ValidSols l →
    List.Forall₂ (fun a s => ∃ info, newType U a = .ok info ∧ info.ty = Sol.ty s ∧ info.kind = Sol.sig s) (argList i ts) l
  | [], ts, i, h, _ => by cases h; exact List.Forall₂.nil
  | s :: l, ts, i, h, hv => by
    rw [stys] at h
    rw [ValidSols] at hv
    split at h
    · next t ts' h1 h2 =>
      cases h
      rw [argList]
      refine List.Forall₂.cons ?_ (read_all U l ts' (i + 1) h2 hv.2)
      rw [arg_of_written s t (sty_written s t h1) i]
      obtain ⟨info, g1, g2, g3, _⟩ := C124_read_partial U (dummyName i) s.dummy (dummy_valid s hv.1)
      exact ⟨info, g1, by rw [g2, dummy_ty], by rw [g3]; exact sig_of_ty _ _ (dummy_ty s)⟩
    · cases h

/-- **C124.**  A signature in canonical text is parsed, and `NewType` reads the types from what the parser returns, so that the
same text stands in the signature again.  Missing: arrays of tuples and slices of slices of tuples, which the parser refuses. -/
theorem C124_selector_partial (U : Bytes → Bool) (name : Bytes) (l : List Sol) (hn : Selector.isWord true name) (hv : ValidSols l)
    (hp : (stys l).isSome = true) :
    ∃ args, parseSelector (name ++ txt "(" ++ sigs l ++ txt ")") = .ok (name, args) ∧
      List.Forall₂ (fun a s => ∃ info, newType U a = .ok info ∧ info.ty = Sol.ty s ∧ info.kind = Sol.sig s) args l := by
  obtain ⟨ts, hts⟩ := Option.isSome_iff_exists.mp hp
  obtain ⟨h1, h2, _, _⟩ := stys_written l ts hts
  refine ⟨argList 0 ts, ?_, read_all U l ts 0 hts hv⟩
  rw [← Selector.C80_roundtrip_partial name ts hn h2, printSelector, h1]
  simp [txt]

example : (stys [.uint 8, .slice (.tuple [] [.bool, .array 3 (.slice .address)])]).isSome = true ∧
    sigs [.uint 8, .slice (.tuple [] [.bool, .array 3 (.slice .address)])] = txt "uint8,(bool,address[][3])[]" := by
  refine ⟨rfl, by decide +kernel⟩

end Verif.Abi
