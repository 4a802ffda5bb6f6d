import Verif.Abi.Names
import Mathlib.Data.List.TakeWhile

/-!
# The selector parser

Selectors are byte strings.  The recursion of the parser is bounded by a number of steps; `C80_terminates` shows that it never runs
out.
-/

namespace Verif.Abi.Selector
open Verif

/-- Outcomes, with one for a computation that has used up its steps. -/
inductive PRes (α : Type) where
  | ok (a : α)
  | err
  | panic
  | out

def PRes.bind {α β : Type} (r : PRes α) (f : α → PRes β) : PRes β :=
  match r with
  | .ok a => f a
  | .err => .err
  | .panic => .panic
  | .out => .out

/-- `isDigit` (`/repo/abi/selector_parser.go:29-31`). -/
def isDigit (c : UInt8) : Bool := 48 ≤ c && c ≤ 57

/-- `isAlpha` (`/repo/abi/selector_parser.go:33-35`). -/
def isAlpha (c : UInt8) : Bool := (97 ≤ c && c ≤ 122) || (65 ≤ c && c ≤ 90)

/-- `isIdentifierSymbol` (`/repo/abi/selector_parser.go:37-39`): `$` and `_`. -/
def isIdentifierSymbol (c : UInt8) : Bool := c == 36 || c == 95

/-- The condition on the characters of a token after the first (`/repo/abi/selector_parser.go:52`). -/
def inToken (isIdent : Bool) (c : UInt8) : Bool := isAlpha c || isDigit c || (isIdent && isIdentifierSymbol c)

/-- `parseToken` (`/repo/abi/selector_parser.go:41-58`): the token and the rest. -/
def parseToken (s : Bytes) (isIdent : Bool) : PRes (Bytes × Bytes) :=
  match s with
  | [] => .err
  | c :: r =>
    if !(isAlpha c || (isIdent && isIdentifierSymbol c)) then .err
    else .ok (c :: r.takeWhile (inToken isIdent), r.dropWhile (inToken isIdent))

/-- The loop over the dimensions (`/repo/abi/selector_parser.go:70-82`): what it appends to the type and the rest. -/
def dimsLoop : Nat → Bytes → PRes (Bytes × Bytes)
  | 0, _ => .out
  | fuel + 1, rest =>
    match rest with
    | [] => .ok ([], [])
    | c :: r =>
      if c == 91 then
        match r.dropWhile isDigit with
        | [] => .err
        | d :: r' =>
          if d != 93 then .err
          else PRes.bind (dimsLoop fuel r') fun p => .ok (c :: r.takeWhile isDigit ++ d :: p.1, p.2)
      else .ok ([], rest)

/-- `parseElementaryType` (`/repo/abi/selector_parser.go:64-84`). -/
def parseElementaryType (s : Bytes) : PRes (Bytes × Bytes) :=
  PRes.bind (parseToken s false) fun p => PRes.bind (dimsLoop (p.2.length + 1) p.2) fun q => .ok (p.1 ++ q.1, q.2)

/-- What the parser returns: a string, or a list of such things. -/
inductive Node where
  | leaf (s : Bytes)
  | comp (l : List Node)

/-- The end of `parseCompositeType` (`/repo/abi/selector_parser.go:102-108`); `rest` is empty or starts with `)`. -/
def closeComposite (result : List Node) (rest : Bytes) : PRes (List Node × Bytes) :=
  match rest with
  | [] => .err
  | _ :: 91 :: 93 :: r => .ok (result ++ [.leaf [91, 93]], r)
  | _ :: r => .ok (result, r)

mutual
/-- `parseType` (`/repo/abi/selector_parser.go:111-120`). -/
def parseType : Nat → Bytes → PRes (Node × Bytes)
  | 0, _ => .out
  | fuel + 1, s =>
    match s with
    | [] => .err
    | c :: _ =>
      if c == 40 then PRes.bind (parseCompositeType fuel s) fun p => .ok (.comp p.1, p.2)
      else PRes.bind (parseElementaryType s) fun p => .ok (.leaf p.1, p.2)
/-- `parseCompositeType` (`/repo/abi/selector_parser.go:86-109`); the error message for the empty string indexes it. -/
def parseCompositeType : Nat → Bytes → PRes (List Node × Bytes)
  | 0, _ => .out
  | fuel + 1, s =>
    match s with
    | [] => .panic
    | c :: r =>
      if c != 40 then .err
      else PRes.bind (parseType fuel r) fun p => compLoop fuel [p.1] p.2
/-- The loop (`/repo/abi/selector_parser.go:95-101`) and the end. -/
def compLoop : Nat → List Node → Bytes → PRes (List Node × Bytes)
  | 0, _, _ => .out
  | fuel + 1, result, rest =>
    match rest with
    | [] => closeComposite result []
    | c :: r =>
      if c != 41 then PRes.bind (parseType fuel r) fun p => compLoop fuel (result ++ [p.1]) p.2
      else closeComposite result (c :: r)
end

/-- `ArgumentMarshaling`; `Type` and `InternalType` are equal, `Indexed` is false. -/
inductive AM where
  | mk (name typ : Bytes) (components : List AM)

def AM.typ : AM → Bytes
  | .mk _ t _ => t

/-- `fmt.Sprintf("name%d", i)`. -/
def dummyName (i : Nat) : Bytes := [110, 97, 109, 101] ++ dec i

/-- The text `tuple`. -/
def tupleText : Bytes := [116, 117, 112, 108, 101]

/-- The end of a composite argument (`/repo/abi/selector_parser.go:134-139`). -/
def assembleTuple (i : Nat) (subArgs : List AM) : AM :=
  if (subArgs.getLast?.map AM.typ) = some [91, 93] then .mk (dummyName i) (tupleText ++ [91, 93]) subArgs.dropLast
  else .mk (dummyName i) tupleText subArgs

mutual
/-- `assembleArgs` (`/repo/abi/selector_parser.go:122-145`) from index `i` on. -/
def assembleArgs : Nat → List Node → List AM
  | _, [] => []
  | i, n :: l => assembleArg i n :: assembleArgs (i + 1) l
def assembleArg : Nat → Node → AM
  | i, .leaf s => .mk (dummyName i) s []
  | i, .comp l => assembleTuple i (assembleArgs 0 l)
end

/-- The arguments of a selector (`/repo/abi/selector_parser.go:156-164`). -/
def parseArgs (rest : Bytes) : PRes (List Node × Bytes) :=
  match rest with
  | 40 :: 41 :: r => .ok ([], r)
  | rest => parseCompositeType (2 * rest.length + 1) rest

/-- `ParseSelector` (`/repo/abi/selector_parser.go:151-176`): the name and the arguments. -/
def parseSelector (s : Bytes) : PRes (Bytes × List AM) :=
  PRes.bind (parseToken s true) fun p =>
    PRes.bind (parseArgs p.2) fun q =>
      if q.2.length > 0 then .err else .ok (p.1, assembleArgs 0 q.1)

/-! ### The textual form -/

/-- A type of an argument as it is written: a name with dimensions, or a tuple, possibly with `[]` behind it. -/
inductive STy where
  | elem (token : Bytes) (dims : List Bytes)
  | tuple (fields : List STy) (isSlice : Bool)

/-- `[d]` for every dimension. -/
def printDims (dims : List Bytes) : Bytes := dims.flatMap fun d => 91 :: d ++ [93]

mutual
def STy.print : STy → Bytes
  | .elem tok dims => tok ++ printDims dims
  | .tuple l sl => 40 :: printFields l ++ 41 :: (if sl then [91, 93] else [])
/-- Separated by commas. -/
def printFields : List STy → Bytes
  | [] => []
  | [t] => t.print
  | t :: l => t.print ++ 44 :: printFields l
end

/-- `0` to `9`. -/
def Digit (c : UInt8) : Prop := '0'.toNat ≤ c.toNat ∧ c.toNat ≤ '9'.toNat

/-- `a` to `z`, `A` to `Z`. -/
def Letter (c : UInt8) : Prop := ('a'.toNat ≤ c.toNat ∧ c.toNat ≤ 'z'.toNat) ∨ ('A'.toNat ≤ c.toNat ∧ c.toNat ≤ 'Z'.toNat)

/-- `$` or `_`. -/
def Symbol (c : UInt8) : Prop := c.toNat = '$'.toNat ∨ c.toNat = '_'.toNat

/-- A word that starts with a letter and goes on with letters and digits (and `$`, `_` in an identifier). -/
def isWord (isIdent : Bool) (b : Bytes) : Prop :=
  ∃ c r, b = c :: r ∧ (Letter c ∨ (isIdent = true ∧ Symbol c)) ∧ ∀ x ∈ r, Letter x ∨ Digit x ∨ (isIdent = true ∧ Symbol x)

/-- The classes of the code are those of the specification. -/
theorem C80_classes (c : UInt8) : (isDigit c = true ↔ Digit c) ∧ (isAlpha c = true ↔ Letter c) ∧
    (isIdentifierSymbol c = true ↔ Symbol c) := by
  have e1 : '0'.toNat = 48 := rfl
  have e2 : '9'.toNat = 57 := rfl
  have e3 : 'a'.toNat = 97 := rfl
  have e4 : 'z'.toNat = 122 := rfl
  have e5 : 'A'.toNat = 65 := rfl
  have e6 : 'Z'.toNat = 90 := rfl
  have e7 : '$'.toNat = 36 := rfl
  have e8 : '_'.toNat = 95 := rfl
  refine ⟨?_, ?_, ?_⟩
  · simp [isDigit, Digit, UInt8.le_iff_toNat_le, e1, e2]
  · simp [isAlpha, Letter, UInt8.le_iff_toNat_le, e3, e4, e5, e6]
  · simp [isIdentifierSymbol, Symbol, ← UInt8.toNat_inj, e7, e8]

theorem isWord_iff (isIdent : Bool) (b : Bytes) : isWord isIdent b ↔
    ∃ c r, b = c :: r ∧ (isAlpha c || (isIdent && isIdentifierSymbol c)) = true ∧ ∀ x ∈ r, inToken isIdent x = true := by
  simp only [isWord, inToken, Bool.or_eq_true, Bool.and_eq_true, (C80_classes _).1, (C80_classes _).2.1, (C80_classes _).2.2, or_assoc]

mutual
def STy.Valid : STy → Prop
  | .elem tok dims => isWord false tok ∧ ∀ d ∈ dims, ∀ c ∈ d, Digit c
  | .tuple l _ => l ≠ [] ∧ ValidL l
def ValidL : List STy → Prop
  | [] => True
  | t :: l => t.Valid ∧ ValidL l
end

mutual
/-- The argument that a type stands for: the components of a tuple are listed, its name is `tuple` or `tuple[]`. -/
def STy.arg : Nat → STy → AM
  | i, .elem tok dims => .mk (dummyName i) (tok ++ printDims dims) []
  | i, .tuple l sl => .mk (dummyName i) (tupleText ++ (if sl then [91, 93] else [])) (argList 0 l)
def argList : Nat → List STy → List AM
  | _, [] => []
  | i, t :: l => STy.arg i t :: argList (i + 1) l
end

/-- The text of a selector. -/
def printSelector (name : Bytes) (l : List STy) : Bytes := name ++ 40 :: printFields l ++ [41]

/-! ### Parsing the text -/

mutual
/-- The tree that the parser builds. -/
def STy.node : STy → Node
  | .elem tok dims => .leaf (tok ++ printDims dims)
  | .tuple l sl => .comp (nodes l ++ if sl then [.leaf [91, 93]] else [])
def nodes : List STy → List Node
  | [] => []
  | t :: l => t.node :: nodes l
end

theorem token_ok (id : Bool) (b rest : Bytes) (hb : isWord id b) (hr : ∀ c, rest.head? = some c → inToken id c = false) :
    parseToken (b ++ rest) id = .ok (b, rest) := by
  obtain ⟨c, r, rfl, h1, h2⟩ := (isWord_iff _ _).1 hb
  simp only [List.cons_append, parseToken, h1, Bool.not_true, Bool.false_eq_true, if_false]
  rw [List.takeWhile_append_of_pos h2, List.dropWhile_append_of_pos h2]
  cases rest with
  | nil => simp
  | cons x rest =>
    have := hr x rfl
    simp [this]

/-- A rest that does not continue a type. -/
def Stop (rest : Bytes) : Prop := ∀ c, rest.head? = some c → c = 44 ∨ c = 41

theorem dims_ok (dims : List Bytes) (rest : Bytes) (hd : ∀ d ∈ dims, ∀ c ∈ d, isDigit c = true) (hr : Stop rest) :
    ∀ fuel, (printDims dims ++ rest).length < fuel → dimsLoop fuel (printDims dims ++ rest) = .ok (printDims dims, rest) := by
  induction dims with
  | nil =>
    intro fuel hf
    cases fuel with
    | zero => omega
    | succ f =>
      rw [dimsLoop.eq_def]
      cases rest with
      | nil => simp [printDims]
      | cons c r =>
        have h2 : (c == 91) = false := by rcases hr c rfl with rfl | rfl <;> rfl
        simp [printDims, h2]
  | cons d dims ih =>
    intro fuel hf
    cases fuel with
    | zero => omega
    | succ f =>
      have e : printDims (d :: dims) ++ rest = 91 :: (d ++ 93 :: (printDims dims ++ rest)) := by simp [printDims]
      rw [e] at hf ⊢
      rw [dimsLoop.eq_def]
      have h93 : isDigit 93 = false := by decide
      have hd1 := hd d (by simp)
      simp only [beq_self_eq_true, if_true]
      rw [List.takeWhile_append_of_pos hd1, List.dropWhile_append_of_pos hd1]
      simp only [List.dropWhile_cons, List.takeWhile_cons, h93, Bool.false_eq_true, if_false]
      simp only [List.length_cons, List.length_append] at hf
      have := ih (fun d' hd' => hd d' (by simp [hd'])) f (by simp only [List.length_append]; omega)
      rw [this]
      simp [PRes.bind, printDims]

theorem elem_ok (tok : Bytes) (dims : List Bytes) (rest : Bytes) (hv : (STy.elem tok dims).Valid) (hr : Stop rest) :
    parseElementaryType (tok ++ printDims dims ++ rest) = .ok (tok ++ printDims dims, rest) := by
  rw [STy.Valid] at hv
  unfold parseElementaryType
  rw [List.append_assoc, token_ok false tok _ hv.1, PRes.bind, dims_ok dims rest (fun d hd c hc => (C80_classes c).1.2 (hv.2 d hd c hc)) hr _ (Nat.lt_succ_self _), PRes.bind]
  intro c hc
  cases dims with
  | nil =>
    simp only [printDims, List.flatMap_nil, List.nil_append] at hc
    rcases hr c hc with rfl | rfl <;> decide
  | cons d dims =>
    simp [printDims] at hc
    subst hc
    decide

/-- The fields after the first. -/
def moreText : List STy → Bytes
  | [] => []
  | t :: l => 44 :: t.print ++ moreText l

theorem printFields_cons (t : STy) (l : List STy) : printFields (t :: l) = t.print ++ moreText l := by
  induction l generalizing t with
  | nil => simp [printFields, moreText]
  | cons t' l ih => rw [printFields, ih, moreText]; simp; simp

theorem close_ok (result : List Node) (sl : Bool) (rest : Bytes) (hr : Stop rest) :
    closeComposite result (41 :: ((if sl then [91, 93] else []) ++ rest)) =
      .ok (result ++ (if sl then [.leaf [91, 93]] else []), rest) := by
  cases sl
  · simp only [Bool.false_eq_true, if_false, List.nil_append, List.append_nil]
    unfold closeComposite
    cases rest with
    | nil => rfl
    | cons c r =>
      rcases hr c rfl with rfl | rfl <;> rfl
  · rfl

theorem stop_more (l : List STy) (r : Bytes) : Stop (moreText l ++ 41 :: r) := by
  intro c hc
  cases l with
  | nil => simp [moreText] at hc; exact Or.inr hc.symm
  | cons t l => simp [moreText] at hc; exact Or.inl hc.symm

theorem word_first {b : Bytes} (h : isWord false b) : ∃ c r, b = c :: r ∧ (c == 40) = false := by
  obtain ⟨c, r, rfl, h1, _⟩ := (isWord_iff _ _).1 h
  refine ⟨c, r, rfl, ?_⟩
  cases hc : (c == 40)
  · rfl
  · rw [beq_iff_eq] at hc
    subst hc
    simp [isAlpha] at h1

mutual
theorem type_ok : ∀ (t : STy) (rest : Bytes) (fuel : Nat), t.Valid → Stop rest → 2 * (t.print ++ rest).length + 1 ≤ fuel →
    parseType fuel (t.print ++ rest) = .ok (t.node, rest)
  | .elem tok dims, rest, fuel, hv, hr, hf => by
    cases fuel with
    | zero => omega
    | succ f =>
      have he := elem_ok tok dims rest hv hr
      rw [STy.Valid] at hv
      obtain ⟨c, r, rfl, hc⟩ := word_first hv.1
      rw [STy.print, parseType.eq_def]
      simp only [List.cons_append] at he ⊢
      simp only [hc, Bool.false_eq_true, if_false]
      rw [he]
      simp [PRes.bind, STy.node]
  | .tuple l sl, rest, fuel, hv, hr, hf => by
    rw [STy.Valid] at hv
    cases l with
    | nil => exact absurd rfl hv.1
    | cons t l =>
      have hv2 := hv.2
      rw [ValidL] at hv2
      cases fuel with
      | zero => omega
      | succ f =>
        have e : (STy.tuple (t :: l) sl).print ++ rest =
            40 :: (t.print ++ (moreText l ++ 41 :: ((if sl then [91, 93] else []) ++ rest))) := by
          rw [STy.print, printFields_cons]; simp
        rw [e] at hf ⊢
        simp only [List.length_cons] at hf
        rw [parseType.eq_def]
        simp only [beq_self_eq_true, if_true]
        obtain ⟨f, rfl⟩ : ∃ g, f = g + 1 := ⟨f - 1, by omega⟩
        rw [parseCompositeType.eq_def]
        simp only [bne_self_eq_false, Bool.false_eq_true, if_false]
        rw [type_ok t _ f hv2.1 (stop_more l _) (by omega), PRes.bind]
        simp only
        simp only [List.length_append] at hf
        rw [more_ok l [t.node] _ f hv2.2 (by simp only [List.length_append]; omega), close_ok _ _ _ hr]
        simp [PRes.bind, STy.node, nodes]
theorem more_ok : ∀ (l : List STy) (result : List Node) (r : Bytes) (fuel : Nat), ValidL l →
    2 * (moreText l ++ 41 :: r).length + 1 ≤ fuel →
    compLoop fuel result (moreText l ++ 41 :: r) = closeComposite (result ++ nodes l) (41 :: r)
  | [], result, r, fuel, hv, hf => by
    cases fuel with
    | zero => omega
    | succ f =>
      rw [moreText, compLoop.eq_def]
      simp [nodes]
  | t :: l, result, r, fuel, hv, hf => by
    rw [ValidL] at hv
    cases fuel with
    | zero => omega
    | succ f =>
      have e : moreText (t :: l) ++ 41 :: r = 44 :: (t.print ++ (moreText l ++ 41 :: r)) := by rw [moreText]; simp
      rw [e] at hf ⊢
      simp only [List.length_cons] at hf
      rw [compLoop.eq_def]
      have h44 : ((44 : UInt8) != 41) = true := by decide
      simp only [h44, if_true]
      rw [type_ok t _ f hv.1 (stop_more l r) (by omega), PRes.bind]
      simp only
      simp only [List.length_append] at hf
      rw [more_ok l _ r f hv.2 (by simp only [List.length_append]; omega), nodes]
      simp
end

/-! ### Assembling -/

theorem argList_append (i : Nat) (a b : List Node) : assembleArgs i (a ++ b) = assembleArgs i a ++ assembleArgs (i + a.length) b := by
  induction a generalizing i with
  | nil => simp [assembleArgs]
  | cons n a ih =>
    rw [List.cons_append, assembleArgs, ih, assembleArgs]
    rw [List.length_cons, List.cons_append, show i + 1 + a.length = i + (a.length + 1) by omega]

theorem nodes_length (l : List STy) : (nodes l).length = l.length := by
  induction l with
  | nil => rfl
  | cons t l ih => rw [nodes]; simp [ih]

theorem arg_typ (i : Nat) (t : STy) (hv : t.Valid) : (t.arg i).typ ≠ [91, 93] := by
  cases t with
  | elem tok dims =>
    rw [STy.Valid] at hv
    obtain ⟨c, r, rfl, h1, _⟩ := (isWord_iff _ _).1 hv.1
    simp only [STy.arg, AM.typ]
    intro h
    simp only [List.cons_append, List.cons.injEq] at h
    rw [h.1] at h1
    simp [isAlpha] at h1
  | tuple l sl =>
    simp only [STy.arg, AM.typ, tupleText]
    intro h
    simp at h

theorem argList_last (i : Nat) (l : List STy) (hv : ValidL l) : (argList i l).getLast?.map AM.typ ≠ some [91, 93] := by
  induction l generalizing i with
  | nil => simp [argList]
  | cons t l ih =>
    rw [ValidL] at hv
    rw [argList]
    cases l with
    | nil => simpa [argList] using arg_typ i t hv.1
    | cons t' l =>
      have := ih (i + 1) hv.2
      rw [argList] at this ⊢
      simpa using this

mutual
theorem assemble_ok : ∀ (i : Nat) (t : STy), t.Valid → assembleArg i t.node = t.arg i
  | i, .elem tok dims, _ => by rw [STy.node, assembleArg, STy.arg]
  | i, .tuple l sl, hv => by
    rw [STy.Valid] at hv
    rw [STy.node, assembleArg, STy.arg, argList_append, assembleList_ok 0 l hv.2]
    cases sl
    · simp only [Bool.false_eq_true, if_false, assembleArgs, List.append_nil]
      unfold assembleTuple
      rw [if_neg (argList_last 0 l hv.2)]
    · simp only [if_true, assembleArgs, assembleArg]
      unfold assembleTuple
      rw [if_pos (by simp [AM.typ])]
      simp
theorem assembleList_ok : ∀ (i : Nat) (l : List STy), ValidL l → assembleArgs i (nodes l) = argList i l
  | i, [], _ => by rw [nodes, assembleArgs, argList]
  | i, t :: l, hv => by
    rw [ValidL] at hv
    rw [nodes, assembleArgs, argList, assemble_ok i t hv.1, assembleList_ok (i + 1) l hv.2]
end

theorem print_first (t : STy) (hv : t.Valid) : ∃ c r, t.print = c :: r ∧ c ≠ 41 := by
  cases t with
  | elem tok dims =>
    rw [STy.Valid] at hv
    obtain ⟨c, r, rfl, h1, _⟩ := (isWord_iff _ _).1 hv.1
    refine ⟨c, r ++ printDims dims, by simp [STy.print], ?_⟩
    rintro rfl
    simp [isAlpha] at h1
  | tuple l sl => exact ⟨40, _, by rw [STy.print]; rfl, by decide⟩

/-- **C80.**  Parsing the text of a name and a list of types gives the name and the types. -/
theorem C80_roundtrip_partial (name : Bytes) (l : List STy) (hn : isWord true name) (hv : ValidL l) :
    parseSelector (printSelector name l) = .ok (name, argList 0 l) := by
  unfold parseSelector printSelector
  have e : name ++ 40 :: printFields l ++ [41] = name ++ (40 :: (printFields l ++ [41])) := by simp
  rw [e, token_ok true name _ hn (by intro c hc; simp at hc; subst hc; decide), PRes.bind]
  cases l with
  | nil => simp [printFields, parseArgs, PRes.bind, assembleArgs, argList]
  | cons t l =>
    have hv' := hv
    rw [ValidL] at hv'
    obtain ⟨c, r, hc, hne⟩ := print_first t hv'.1
    have hsel : parseArgs (40 :: (printFields (t :: l) ++ [41])) =
        parseCompositeType (2 * (40 :: (printFields (t :: l) ++ [41])).length + 1) (40 :: (printFields (t :: l) ++ [41])) := by
      rw [printFields_cons, hc]
      unfold parseArgs
      split
      · next h => simp at h; exact absurd h.1 hne
      · rfl
    simp only
    rw [hsel, printFields_cons, List.append_assoc, parseCompositeType.eq_def]
    simp only [bne_self_eq_false, Bool.false_eq_true, if_false]
    rw [type_ok t _ _ hv'.1 (stop_more l []) (by simp only [List.length_cons]; omega), PRes.bind]
    simp only
    have hcl := close_ok (t.node :: nodes l) false [] (by intro c hc; simp at hc)
    simp only [Bool.false_eq_true, if_false, List.append_nil] at hcl
    rw [more_ok l _ [] _ hv'.2 (by simp only [List.length_cons, List.length_append]; omega), List.singleton_append, hcl, PRes.bind]
    simp only [List.length_nil, Nat.lt_irrefl, gt_iff_lt, if_false]
    have := assembleList_ok 0 (t :: l) hv
    rw [nodes] at this
    rw [this]

/-! ### Termination -/

theorem bind_out {α β : Type} {r : PRes α} {f : α → PRes β} (hr : r ≠ .out) (hf : ∀ a, r = .ok a → f a ≠ .out) : PRes.bind r f ≠ .out := by
  cases r with
  | ok a => exact hf a rfl
  | err => simp [PRes.bind]
  | panic => simp [PRes.bind]
  | out => exact absurd rfl hr

theorem bind_ok {α β : Type} {r : PRes α} {f : α → PRes β} {b : β} (h : PRes.bind r f = .ok b) : ∃ a, r = .ok a ∧ f a = .ok b := by
  cases r with
  | ok a => exact ⟨a, rfl, h⟩
  | err => cases h
  | panic => cases h
  | out => cases h

theorem dropWhile_le (p : UInt8 → Bool) (l : Bytes) : (l.dropWhile p).length ≤ l.length := (List.dropWhile_suffix p).length_le

theorem token_rest (s : Bytes) (id : Bool) : parseToken s id ≠ .out ∧ ∀ p, parseToken s id = .ok p → p.2.length < s.length := by
  unfold parseToken
  cases s with
  | nil => exact ⟨by simp, fun p h => by cases h⟩
  | cons c r =>
    simp only
    split
    · exact ⟨by simp, fun p h => by cases h⟩
    · refine ⟨by simp, fun p h => ?_⟩
      injection h with h
      subst h
      have := dropWhile_le (inToken id) r
      simp only [List.length_cons]
      omega

theorem dims_rest (fuel : Nat) : ∀ rest : Bytes, rest.length < fuel →
    dimsLoop fuel rest ≠ .out ∧ ∀ p, dimsLoop fuel rest = .ok p → p.2.length ≤ rest.length := by
  induction fuel with
  | zero => intro rest h; omega
  | succ f ih =>
    intro rest hf
    rw [dimsLoop.eq_def]
    cases rest with
    | nil => exact ⟨by simp, fun p h => by injection h with h; subst h; simp⟩
    | cons c r =>
      simp only
      split
      · have hle := dropWhile_le isDigit r
        simp only [List.length_cons] at hf
        cases hd : r.dropWhile isDigit with
        | nil => exact ⟨by simp, fun p h => by cases h⟩
        | cons d r' =>
          rw [hd, List.length_cons] at hle
          simp only
          split
          · exact ⟨by simp, fun p h => by cases h⟩
          · obtain ⟨h1, h2⟩ := ih r' (by omega)
            refine ⟨bind_out h1 fun a _ => by simp, fun p h => ?_⟩
            obtain ⟨a, ha, hb⟩ := bind_ok h
            injection hb with hb
            subst hb
            have := h2 a ha
            simp only [List.length_cons]
            omega
      · exact ⟨by simp, fun p h => by injection h with h; subst h; simp⟩

theorem elem_rest (s : Bytes) : parseElementaryType s ≠ .out ∧ ∀ p, parseElementaryType s = .ok p → p.2.length < s.length := by
  unfold parseElementaryType
  obtain ⟨h1, h2⟩ := token_rest s false
  constructor
  · exact bind_out h1 fun a _ => bind_out (dims_rest _ _ (Nat.lt_succ_self _)).1 fun b _ => by simp
  · intro p h
    obtain ⟨a, ha, hb⟩ := bind_ok h
    obtain ⟨b, hd, hc⟩ := bind_ok hb
    injection hc with hc
    subst hc
    have := h2 a ha
    have := (dims_rest _ _ (Nat.lt_succ_self _)).2 b hd
    simp only
    omega

theorem close_rest (result : List Node) (rest : Bytes) :
    closeComposite result rest ≠ .out ∧ ∀ p, closeComposite result rest = .ok p → p.2.length < rest.length := by
  unfold closeComposite
  split
  · exact ⟨by simp, fun p h => by cases h⟩
  · exact ⟨by simp, fun p h => by injection h with h; subst h; simp only [List.length_cons]; omega⟩
  · exact ⟨by simp, fun p h => by injection h with h; subst h; simp⟩

theorem parse_rest (fuel : Nat) :
    (∀ s, 2 * s.length + 1 ≤ fuel → parseType fuel s ≠ .out ∧ ∀ p, parseType fuel s = .ok p → p.2.length < s.length) ∧
    (∀ s, 1 ≤ fuel → 2 * s.length ≤ fuel →
      parseCompositeType fuel s ≠ .out ∧ ∀ p, parseCompositeType fuel s = .ok p → p.2.length < s.length) ∧
    (∀ res rest, 2 * rest.length + 1 ≤ fuel →
      compLoop fuel res rest ≠ .out ∧ ∀ p, compLoop fuel res rest = .ok p → p.2.length ≤ rest.length) := by
  induction fuel with
  | zero => exact ⟨fun s h => by omega, fun s h => by omega, fun r s h => by omega⟩
  | succ f ih =>
    obtain ⟨i1, i2, i3⟩ := ih
    refine ⟨?_, ?_, ?_⟩
    · intro s hf
      rw [parseType.eq_def]
      cases s with
      | nil => exact ⟨by simp, fun p h => by cases h⟩
      | cons c r =>
        simp only
        split
        · obtain ⟨h1, h2⟩ := i2 (c :: r) (by simp at hf; omega) (by omega)
          refine ⟨bind_out h1 fun a _ => by simp, fun p h => ?_⟩
          obtain ⟨a, ha, hb⟩ := bind_ok h
          injection hb with hb
          subst hb
          exact h2 a ha
        · obtain ⟨h1, h2⟩ := elem_rest (c :: r)
          refine ⟨bind_out h1 fun a _ => by simp, fun p h => ?_⟩
          obtain ⟨a, ha, hb⟩ := bind_ok h
          injection hb with hb
          subst hb
          exact h2 a ha
    · intro s hf0 hf
      rw [parseCompositeType.eq_def]
      cases s with
      | nil => exact ⟨by simp, fun p h => by cases h⟩
      | cons c r =>
        simp only
        split
        · exact ⟨by simp, fun p h => by cases h⟩
        · simp only [List.length_cons] at hf
          obtain ⟨h1, h2⟩ := i1 r (by omega)
          refine ⟨bind_out h1 fun a ha => (i3 _ _ (by have := h2 a ha; omega)).1, fun p h => ?_⟩
          obtain ⟨a, ha, hb⟩ := bind_ok h
          have := h2 a ha
          have := (i3 _ _ (by omega)).2 p hb
          simp only [List.length_cons]
          omega
    · intro res rest hf
      rw [compLoop.eq_def]
      cases rest with
      | nil =>
        obtain ⟨h1, h2⟩ := close_rest res []
        exact ⟨h1, fun p h => Nat.le_of_lt (h2 p h)⟩
      | cons c r =>
        simp only
        split
        · simp only [List.length_cons] at hf
          obtain ⟨h1, h2⟩ := i1 r (by omega)
          refine ⟨bind_out h1 fun a ha => (i3 _ _ (by have := h2 a ha; omega)).1, fun p h => ?_⟩
          obtain ⟨a, ha, hb⟩ := bind_ok h
          have := h2 a ha
          have := (i3 _ _ (by omega)).2 p hb
          simp only [List.length_cons]
          omega
        · obtain ⟨h1, h2⟩ := close_rest res (c :: r)
          exact ⟨h1, fun p h => Nat.le_of_lt (h2 p h)⟩

/-- **C80.**  Parsing ends for every input. -/
theorem C80_terminates (s : Bytes) : parseSelector s ≠ .out := by
  unfold parseSelector
  refine bind_out (token_rest s true).1 fun p _ => bind_out ?_ fun q _ => ?_
  · unfold parseArgs
    split
    · simp
    · exact ((parse_rest _).2.1 _ (by omega) (by omega)).1
  · split <;> simp

/-- Parsing panics only when the whole input is an identifier. -/
theorem type_noPanic (fuel : Nat) :
    (∀ s, parseType fuel s ≠ .panic) ∧ (∀ s, s ≠ [] → parseCompositeType fuel s ≠ .panic) ∧
    (∀ res rest, compLoop fuel res rest ≠ .panic) := by
  have bp : ∀ {α β : Type} {r : PRes α} {f : α → PRes β}, r ≠ .panic → (∀ a, r = .ok a → f a ≠ .panic) → PRes.bind r f ≠ .panic := by
    intro α β r f hr hf
    cases r with
    | ok a => exact hf a rfl
    | err => simp [PRes.bind]
    | panic => exact absurd rfl hr
    | out => simp [PRes.bind]
  have htok : ∀ s id, parseToken s id ≠ .panic := by
    intro s id
    unfold parseToken
    cases s with
    | nil => simp
    | cons c r => simp only; split <;> simp
  have hdims : ∀ fuel rest, dimsLoop fuel rest ≠ .panic := by
    intro fuel
    induction fuel with
    | zero => intro rest; simp [dimsLoop]
    | succ f ih =>
      intro rest
      rw [dimsLoop.eq_def]
      cases rest with
      | nil => simp
      | cons c r =>
        simp only
        split
        · split
          · simp
          · split
            · simp
            · exact bp (ih _) fun _ _ => by simp
        · simp
  have hclose : ∀ res rest, closeComposite res rest ≠ .panic := by
    intro res rest
    unfold closeComposite
    split <;> simp
  induction fuel with
  | zero => exact ⟨fun s => by simp [parseType], fun s _ => by simp [parseCompositeType], fun r s => by simp [compLoop]⟩
  | succ f ih =>
    obtain ⟨i1, i2, i3⟩ := ih
    refine ⟨?_, ?_, ?_⟩
    · intro s
      rw [parseType.eq_def]
      cases s with
      | nil => simp
      | cons c r =>
        simp only
        split
        · exact bp (i2 _ (by simp)) fun _ _ => by simp
        · exact bp (bp (htok _ _) fun _ _ => bp (hdims _ _) fun _ _ => by simp) fun _ _ => by simp
    · intro s hs
      rw [parseCompositeType.eq_def]
      cases s with
      | nil => exact absurd rfl hs
      | cons c r =>
        simp only
        split
        · simp
        · exact bp (i1 _) fun _ _ => i3 _ _
    · intro res rest
      rw [compLoop.eq_def]
      cases rest with
      | nil => exact hclose _ _
      | cons c r =>
        simp only
        split
        · exact bp (i1 _) fun _ _ => i3 _ _
        · exact hclose _ _

/-- **C80.**  Parsing panics exactly on an identifier that nothing follows. -/
theorem C80_panic (s : Bytes) : parseSelector s = .panic ↔ isWord true s := by
  rw [isWord_iff]
  constructor
  · intro h
    unfold parseSelector at h
    cases s with
    | nil => simp [parseToken, PRes.bind] at h
    | cons c r =>
      simp only [parseToken] at h
      split at h
      · cases h
      next hc =>
      rw [PRes.bind] at h
      simp only at h
      cases hr : r.dropWhile (inToken true) with
      | nil =>
        refine ⟨c, r, rfl, ?_, ?_⟩
        · simpa only [Bool.not_eq_true', Bool.not_eq_false] using hc
        · exact List.dropWhile_eq_nil_iff.mp hr
      | cons d r' =>
        rw [hr] at h
        exfalso
        have : parseArgs (d :: r') ≠ .panic := by
          unfold parseArgs
          split
          · simp
          · exact (type_noPanic _).2.1 _ (by simp)
        generalize parseArgs (d :: r') = q at *
        cases q with
        | ok a => rw [PRes.bind] at h; split at h <;> cases h
        | err => cases h
        | panic => exact this rfl
        | out => cases h
  · intro h
    have := token_ok true s [] ((isWord_iff _ _).2 h) (by simp)
    rw [List.append_nil] at this
    unfold parseSelector
    rw [this, PRes.bind]
    rfl

/-! ### Where the text is not respected -/

/-- The text `f(`, for the examples. -/
def f0 : Bytes := [102, 40]

/-- **C80.**  Anything separates arguments, not only commas: `f(a;b)` is read as `f(a,b)`. -/
theorem C80_separator_refuted : parseSelector (f0 ++ [97, 59, 98, 41]) = parseSelector (f0 ++ [97, 44, 98, 41]) ∧
    ∃ r, parseSelector (f0 ++ [97, 59, 98, 41]) = .ok r := ⟨rfl, _, rfl⟩

/-- **C80.**  `f(a)[]` is accepted, with a second argument of type `[]`. -/
theorem C80_suffix_refuted : ∃ args, parseSelector (f0 ++ [97, 41, 91, 93]) = .ok ([102], args) ∧ args.map AM.typ = [[97], [91, 93]] :=
  ⟨_, rfl, rfl⟩

/-- **C80.**  `f((a)[2])` and `f((a)[][])` are not accepted, although arrays of tuples are types. -/
theorem C80_arrays_refuted : parseSelector (f0 ++ [40, 97, 41, 91, 50, 93, 41]) = .err ∧
    parseSelector (f0 ++ [40, 97, 41, 91, 93, 91, 93, 41]) = .err := ⟨rfl, rfl⟩

/-- `f(uint8[2][],(a,b[])[],(c))`. -/
example : ValidL [.elem [117, 56] [[50], []], .tuple [.elem [97] [], .elem [98] [[]]] true, .tuple [.elem [99] []] false] := by
  simp [ValidL, STy.Valid, isWord_iff, isAlpha, inToken, ← (C80_classes _).1, isDigit]

end Verif.Abi.Selector
