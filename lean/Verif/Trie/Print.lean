import Verif.Trie.IteratorProps
import Verif.Trie.History
import Verif.Hex.Model

/-!
# Property C163: printed tries

Model of `String`, `PrintValues` and `ValueString` of `Trie` (`/repo/trie/trie.go:732-818`) with `print` of `node`
(`/repo/trie/node.go:796-828`) on the trie with its caches and its storage of `Verif.Trie.Store`.

Simplifications:

* a text is its bytes; `txt` is what `fmt.Sprintf("%s", value)` makes of a value;
* errors of the storage are only logged by the code; the log is left out;
* the first argument of `printF` bounds the depth; `none` means that it was too small;
* locks are omitted: every call is one step.
-/

namespace Verif.Trie.Show
open Verif Verif.Merkle Verif.Trie Verif.Trie.Store

variable {V : Type}

/-- The bytes of a text of ASCII characters. -/
def ascii (l : List Char) : Bytes := l.map fun c => UInt8.ofNat c.toNat

/-- `valuebyteToHexbyteArray` (`/repo/trie/utils.go:122-127`). -/
def digit (j : Nib) : UInt8 := if j.val < 10 then UInt8.ofNat (48 + j.val) else UInt8.ofNat (55 + j.val)

/-- `prefixToHexstring` (`/repo/trie/utils.go:129-139`). -/
def digits (p : List Nib) : Bytes := p.map digit

/-- A field that is printed only if it is there (`/repo/trie/node.go:801-804, 812-819`). -/
def field (name : List Char) : Option Bytes → Bytes
  | none => []
  | some b => ascii name ++ b

/-- `print` behind the value (`/repo/trie/node.go:805-828`). -/
def printRest (E : Env V) (i : Info V) (c : Nib → BNode V) : Bytes :=
  ascii [',', ' ', 'c', 'h', 'i', 'l', 'd', '['] ++ digits (kidIds c) ++ ascii [']'] ++
    field [',', ' ', 'h', 'a', 's', 'h', '='] (i.hash.map Hex.hexEncode) ++
    field [',', ' ', 'v', 'a', 'l', 'u', 'e', 'h', 'a', 's', 'h', '='] (i.vhash.map Hex.hexEncode) ++
    (if isCollapsed E i c then ascii [',', ' ', 'c', 'o', 'l', 'l', 'a', 'p', 's', 'e', 'd'] else []) ++
    (if i.dirty then ascii [',', ' ', 'd', 'i', 'r', 't', 'y'] else []) ++ ascii ['}']

/-- `print` (`/repo/trie/node.go:796-828`). -/
def printNode (E : Env V) (txt : V → Bytes) (i : Info V) (c : Nib → BNode V) : Bytes :=
  ascii ['{', 'p', 'r', 'e', 'f', 'i', 'x', '='] ++ digits i.pre ++
    field [',', ' ', 'v', 'a', 'l', 'u', 'e', '='] (i.value.map txt) ++ printRest E i c

/-- The beginning of a line (`/repo/trie/trie.go:798-801`). -/
def lineHead (q : List Nib) : Bytes := if q = [] then [] else digits q ++ ascii ['.']

/-- One line (`/repo/trie/trie.go:808-810`). -/
def line (E : Env V) (txt : V → Bytes) (q : List Nib) (i : Info V) (c : Nib → BNode V) : Bytes :=
  lineHead q ++ printNode E txt i c ++ [10]

/-- The expansion at the beginning of `iteratePrint` (`/repo/trie/trie.go:792-797`). -/
def opened (E : Env V) (D : Disk) (g : UInt64) (i : Info V) (c : Nib → BNode V) : BNode V × Bool :=
  if isCollapsed E i c then expandNode E D g i c else (.mk i c, true)

/-- The line of a node, if it has one, and the node with its value expanded (`/repo/trie/trie.go:802-811`). A value that
cannot be loaded is left out of the line. -/
def ownLine (E : Env V) (D : Disk) (txt : V → Bytes) (valueOnly : Bool) (q : List Nib) (i : Info V) (c : Nib → BNode V) :
    Bytes × BNode V :=
  if valueOnly = false ∨ i.value.isSome then
    match (expandValue E D i c).1 with
    | .nil => ([], .nil)
    | .mk i' c' => (line E txt q i' c', .mk i' c')
  else ([], .mk i c)

/-- `iteratePrint` (`/repo/trie/trie.go:788-818`): the text and the node afterwards. -/
def printF (E : Env V) (D : Disk) (g : UInt64) (txt : V → Bytes) (valueOnly : Bool) :
    Nat → List Nib → BNode V → Option (Bytes × BNode V)
  | 0, _, _ => none
  | _ + 1, _, .nil => some ([], .nil)
  | f + 1, q, .mk i c =>
    match opened E D g i c with
    | (n, false) => some ([], n)
    | (.nil, true) => some ([], .nil)
    | (.mk i1 c1, true) =>
      match ownLine E D txt valueOnly q i1 c1 with
      | (_, .nil) => some ([], .nil)
      | (l, .mk i2 c2) =>
        (nibbles.foldl (fun s j => s.bind fun (x : Bytes × (Nib → BNode V)) =>
          if (c2 j).isSome then
            (printF E D g txt valueOnly f (q ++ i2.pre ++ [j]) (c2 j)).map fun r => (x.1 ++ r.1, setKid x.2 j r.2)
          else some x) (some (l, c2))).map fun x => (x.1, .mk i2 x.2)

/-- `String` (`valueOnly = false`) and `PrintValues` (`valueOnly = true`) (`/repo/trie/trie.go:732-748`). -/
def printTrie (E : Env V) (D : Disk) (txt : V → Bytes) (valueOnly : Bool) (fuel : Nat) (t : BTrie V) :
    Option (Bytes × BTrie V) :=
  (printF E D t.gen txt valueOnly fuel [] t.root).map fun r => (r.1, { t with root := r.2 })

/-- The texts of `ValueString` one after the other (`/repo/trie/trie.go:758-766`). -/
def joined : List Bytes → Bytes
  | [] => []
  | [x] => x
  | x :: y :: l => x ++ ascii [',', ' '] ++ joined (y :: l)

/-- What `IterateAll(true, …)` passes on (`/repo/trie/trie.go:943-958`): nothing without a value, and not what is under
the empty key, which the iterator reports as nil (`/repo/trie/iterator.go:283-285`). -/
def passed (l : List (Bytes × Option V)) : List (Bytes × V) :=
  l.filterMap fun e => if e.1 = [] then none else e.2.map fun x => (e.1, x)

/-- `ValueString` (`/repo/trie/trie.go:750-769`). -/
def valueString (E : Env V) (F : Faults) (L : Limits) (D : Disk) (txt : V → Bytes) (t : BTrie V) (fuel : Nat) : Res Bytes :=
  match t.iterate E F L D fuel with
  | .ok l => .ok (ascii ['<'] ++ joined ((passed l).map fun e => txt e.2) ++ ascii ['>'])
  | .err => .err
  | .panic => .panic

/-! ### Reading a printed trie

What a reader makes of the text, without knowing how it was made: every line begins with the path to the node in hexadecimal
digits, a dot, and the prefix of the node; if there is a value it follows, up to the next comma. -/

/-- The lines of a text. -/
def lines : Bytes → List Bytes
  | [] => []
  | b :: r =>
    if b = 10 then [] :: lines r
    else match lines r with
      | [] => [[b]]
      | l :: ls => (b :: l) :: ls

/-- The nibble of a hexadecimal digit, in capital letters. -/
def undigit (b : UInt8) : Option Nib :=
  if h : 48 ≤ b.toNat ∧ b.toNat < 58 then some ⟨b.toNat - 48, by omega⟩
  else if h : 65 ≤ b.toNat ∧ b.toNat < 71 then some ⟨b.toNat - 55, by omega⟩
  else none

/-- The digits at the beginning of a text, and the rest. -/
def leading : Bytes → List Nib × Bytes
  | [] => ([], [])
  | b :: r =>
    match undigit b with
    | none => ([], b :: r)
    | some j => (j :: (leading r).1, (leading r).2)

/-- The text behind a word. -/
def behind : Bytes → Bytes → Option Bytes
  | [], r => some r
  | _ :: _, [] => none
  | a :: w, b :: r => if a = b then behind w r else none

/-- What a line says: the whole path and the text of the value. -/
def readLine (l : Bytes) : Option (List Nib × Option Bytes) :=
  let a := leading l
  let r := if a.1 = [] then a.2 else a.2.drop 1
  (behind (ascii ['{', 'p', 'r', 'e', 'f', 'i', 'x', '=']) r).map fun r =>
    let b := leading r
    (a.1 ++ b.1, (behind (ascii [',', ' ', 'v', 'a', 'l', 'u', 'e', '=']) b.2).map fun r => r.takeWhile fun x => x ≠ 44)

/-- What a text says. -/
def readText (b : Bytes) : List (Option (List Nib × Option Bytes)) := (lines b).map readLine

/-- The text of a value, if there is one, can be told from what follows: no comma and no line break. -/
def Plain (txt : V → Bytes) (v : Option V) : Prop := ∀ x, v = some x → (44 : UInt8) ∉ txt x ∧ (10 : UInt8) ∉ txt x

/-! ### Lemmas about reading -/

theorem lines_line (l r : Bytes) (h : (10 : UInt8) ∉ l) : lines (l ++ 10 :: r) = l :: lines r := by
  induction l with
  | nil => simp [lines]
  | cons b l ih =>
    simp only [List.mem_cons, not_or] at h
    rw [List.cons_append, lines, if_neg (fun e => h.1 e.symm), ih h.2]

theorem undigit_digit (j : Nib) : undigit (digit j) = some j := by revert j; decide +kernel

theorem digit_ne (j : Nib) : digit j ≠ 10 ∧ digit j ≠ 44 := by revert j; decide +kernel

theorem leading_digits (p : List Nib) (r : Bytes) (h : ∀ b, r.head? = some b → undigit b = none) :
    leading (digits p ++ r) = (p, r) := by
  induction p with
  | nil =>
    cases r with
    | nil => rfl
    | cons b r => simp [digits, leading, h b rfl]
  | cons j p ih =>
    rw [digits, List.map_cons, List.cons_append, leading, undigit_digit]
    change (j :: (leading (digits p ++ r)).1, (leading (digits p ++ r)).2) = _
    rw [ih]

theorem behind_append (w r : Bytes) : behind w (w ++ r) = some r := by
  induction w with
  | nil => cases r <;> rfl
  | cons a w ih => rw [List.cons_append, behind, if_pos rfl, ih]

theorem not_digits (p : List Nib) : (10 : UInt8) ∉ digits p := by
  rw [digits, List.mem_map]
  rintro ⟨j, -, h⟩
  exact (digit_ne j).1 h

theorem hexChar_ne (n : Nat) (h : n < 16) : Hex.hexChar n ≠ 10 := by
  have : ∀ j : Fin 16, Hex.hexChar j.val ≠ 10 := by decide +kernel
  exact this ⟨n, h⟩

theorem not_hex (b : Bytes) : (10 : UInt8) ∉ Hex.hexEncode b := by
  rw [Hex.hexEncode, List.mem_flatMap]
  rintro ⟨x, -, h⟩
  have hx := x.toNat_lt
  simp only [List.mem_cons, List.not_mem_nil, or_false] at h
  rcases h with h | h
  · exact hexChar_ne _ (by omega) h.symm
  · exact hexChar_ne _ (by omega) h.symm

theorem not_field {name : List Char} {o : Option Bytes} (hn : (10 : UInt8) ∉ ascii name) (ho : ∀ b, o = some b → (10 : UInt8) ∉ b) :
    (10 : UInt8) ∉ field name o := by
  cases o with
  | none => simp [field]
  | some b =>
    rw [field, List.mem_append]
    rintro (h | h)
    · exact hn h
    · exact ho b rfl h

theorem not_rest (E : Env V) (i : Info V) (c : Nib → BNode V) : (10 : UInt8) ∉ printRest E i c := by
  have h1 : (10 : UInt8) ∉ field [',', ' ', 'h', 'a', 's', 'h', '='] (i.hash.map Hex.hexEncode) :=
    not_field (by decide +kernel) (by
      intro b hb
      obtain ⟨x, -, rfl⟩ := Option.map_eq_some_iff.1 hb
      exact not_hex x)
  have h2 : (10 : UInt8) ∉ field [',', ' ', 'v', 'a', 'l', 'u', 'e', 'h', 'a', 's', 'h', '='] (i.vhash.map Hex.hexEncode) :=
    not_field (by decide +kernel) (by
      intro b hb
      obtain ⟨x, -, rfl⟩ := Option.map_eq_some_iff.1 hb
      exact not_hex x)
  have h3 : (10 : UInt8) ∉ (if isCollapsed E i c then ascii [',', ' ', 'c', 'o', 'l', 'l', 'a', 'p', 's', 'e', 'd'] else []) := by
    split
    · decide +kernel
    · simp
  have h4 : (10 : UInt8) ∉ (if i.dirty then ascii [',', ' ', 'd', 'i', 'r', 't', 'y'] else []) := by
    split
    · decide +kernel
    · simp
  have h5 : (10 : UInt8) ∉ ascii [',', ' ', 'c', 'h', 'i', 'l', 'd', '['] := by decide +kernel
  have h6 : (10 : UInt8) ∉ ascii [']'] := by decide +kernel
  have h7 : (10 : UInt8) ∉ ascii ['}'] := by decide +kernel
  rw [printRest]
  simp only [List.mem_append, not_or]
  exact ⟨⟨⟨⟨⟨⟨⟨h5, not_digits _⟩, h6⟩, h1⟩, h2⟩, h3⟩, h4⟩, h7⟩

theorem not_line {txt : V → Bytes} (E : Env V) (q : List Nib) (i : Info V) (c : Nib → BNode V) (ht : Plain txt i.value) :
    (10 : UInt8) ∉ lineHead q ++ printNode E txt i c := by
  have h1 : (10 : UInt8) ∉ lineHead q := by
    rw [lineHead]
    split
    · simp
    · simp only [List.mem_append, not_or]
      exact ⟨not_digits _, by decide +kernel⟩
  have h2 : (10 : UInt8) ∉ field [',', ' ', 'v', 'a', 'l', 'u', 'e', '='] (i.value.map txt) :=
    not_field (by decide +kernel) (by
      intro b hb
      obtain ⟨x, hx, rfl⟩ := Option.map_eq_some_iff.1 hb
      exact (ht x hx).2)
  have h3 : (10 : UInt8) ∉ ascii ['{', 'p', 'r', 'e', 'f', 'i', 'x', '='] := by decide +kernel
  rw [printNode]
  simp only [List.mem_append, not_or]
  exact ⟨h1, ⟨⟨h3, not_digits _⟩, h2⟩, not_rest E i c⟩

theorem rest_head (E : Env V) (i : Info V) (c : Nib → BNode V) : ∃ r, printRest E i c = 44 :: 32 :: 99 :: r := by
  simp only [printRest, ascii, List.map_cons, List.cons_append]
  exact ⟨_, rfl⟩

theorem takeWhile_upto (a r : Bytes) (h : (44 : UInt8) ∉ a) : (a ++ 44 :: r).takeWhile (fun x => x ≠ 44) = a := by
  induction a with
  | nil => simp
  | cons b a ih =>
    simp only [List.mem_cons, not_or] at h
    rw [List.cons_append, List.takeWhile_cons_of_pos (by simpa using fun e => h.1 e.symm), ih h.2]

theorem readLine_line {txt : V → Bytes} (E : Env V) (q : List Nib) (i : Info V) (c : Nib → BNode V) (ht : Plain txt i.value) :
    readLine (lineHead q ++ printNode E txt i c) = some (q ++ i.pre, i.value.map txt) := by
  obtain ⟨r, hr⟩ := rest_head E i c
  have hbrace : undigit 123 = none := by decide +kernel
  have hdot : undigit 46 = none := by decide +kernel
  have hcomma : undigit 44 = none := by decide +kernel
  have h1 : leading (lineHead q ++ printNode E txt i c) =
      (q, if q = [] then printNode E txt i c else 46 :: printNode E txt i c) := by
    rw [lineHead]
    split
    · rename_i hq
      subst hq
      exact leading_digits [] _ (by
        intro b hb
        simp only [printNode, ascii, List.map_cons, List.cons_append, List.head?_cons, Option.some.injEq] at hb
        rw [← hb]
        exact hbrace)
    · rw [List.append_assoc]
      exact leading_digits q _ (by
        intro b hb
        simp only [ascii, List.map_cons, List.cons_append, List.head?_cons, Option.some.injEq] at hb
        rw [← hb]
        exact hdot)
  have h2 : (if q = [] then (if q = [] then printNode E txt i c else 46 :: printNode E txt i c) else
      List.drop 1 (if q = [] then printNode E txt i c else 46 :: printNode E txt i c)) = printNode E txt i c := by
    split <;> simp
  have h3 : behind (ascii ['{', 'p', 'r', 'e', 'f', 'i', 'x', '=']) (printNode E txt i c) =
      some (digits i.pre ++ (field [',', ' ', 'v', 'a', 'l', 'u', 'e', '='] (i.value.map txt) ++ printRest E i c)) := by
    rw [printNode, List.append_assoc, List.append_assoc, behind_append]
  have h4 : leading (digits i.pre ++ (field [',', ' ', 'v', 'a', 'l', 'u', 'e', '='] (i.value.map txt) ++ printRest E i c)) =
      (i.pre, field [',', ' ', 'v', 'a', 'l', 'u', 'e', '='] (i.value.map txt) ++ printRest E i c) := by
    refine leading_digits _ _ ?_
    intro b hb
    cases hv : i.value with
    | none =>
      simp only [hv, Option.map_none, field, List.nil_append, hr, List.head?_cons, Option.some.injEq] at hb
      rw [← hb]
      exact hcomma
    | some x =>
      simp only [hv, Option.map_some, field, ascii, List.map_cons, List.cons_append, List.head?_cons, Option.some.injEq] at hb
      rw [← hb]
      exact hcomma
  simp only [readLine, h1, h2, h3, h4, Option.map_some]
  congr 2
  cases hv : i.value with
  | none =>
    rw [Option.map_none, field, List.nil_append, hr]
    simp [ascii, behind]
  | some x =>
    rw [Option.map_some, field, List.append_assoc, behind_append, Option.map_some, hr, takeWhile_upto _ _ (ht x hv).1]

theorem readText_line {txt : V → Bytes} (E : Env V) (q : List Nib) (i : Info V) (c : Nib → BNode V) (ht : Plain txt i.value)
    (rest : Bytes) :
    readText (line E txt q i c ++ rest) = some (q ++ i.pre, i.value.map txt) :: readText rest := by
  rw [readText, line, List.append_assoc, List.singleton_append, lines_line _ _ (not_line E q i c ht), List.map_cons,
    readLine_line E q i c ht, readText]

/-! ### What is printed -/

/-- A bound for the depth of a tree. -/
def tall : Node V → Nat
  | .nil => 0
  | .mk _ _ c => 1 + (nibbles.map fun j => tall (c j)).sum

theorem tall_kid (p : List Nib) (v : Option V) (c : Nib → Node V) (j : Nib) : tall (c j) < tall (.mk p v c) := by
  have : ∀ l : List Nib, j ∈ l → tall (c j) ≤ (l.map fun j => tall (c j)).sum := by
    intro l
    induction l with
    | nil => simp
    | cons a l ih =>
      intro h
      rw [List.map_cons, List.sum_cons]
      rcases List.mem_cons.1 h with rfl | h
      · omega
      · have := ih h; omega
  have := this nibbles (mem_nibbles j)
  rw [tall]
  omega

/-- No node in memory has dropped its value alone. -/
def Held : BNode V → Prop
  | .nil => True
  | .mk i c => isValueCollapsed i = false ∧ ∀ j, Held (c j)

/-- What the text says of a node. -/
def entry (txt : V → Bytes) (e : List Nib × Option V) : Option (List Nib × Option Bytes) := some (e.1, e.2.map txt)

/-- The nodes a call prints, at most. -/
def meant (valueOnly : Bool) (l : List (List Nib × Option V)) : List (List Nib × Option V) :=
  if valueOnly then l.filter fun e => e.2.isSome else l

/-- What is to be shown of a call: the text says `es`, the node stands for the same tree. -/
structure Printed (E : Env V) (D : Disk) (txt : V → Bytes) (valueOnly : Bool) (text : Bytes) (b' : BNode V) (a : Node V)
    (all : List (List Nib × Option V)) (held : Prop) : Prop where
  rep : Rep E D b' a
  tells : ∃ es, (∀ rest, readText (text ++ rest) = es.map (entry txt) ++ readText rest) ∧ es.Sublist (meant valueOnly all) ∧
    (valueOnly = false ∨ held → es = meant valueOnly all)

variable {E : Env V} {D : Disk}

theorem meant_append (w : Bool) (a b : List (List Nib × Option V)) : meant w (a ++ b) = meant w a ++ meant w b := by
  cases w <;> simp [meant]

theorem kidsOf_held (g : UInt64) (l : List (Nib × Bytes)) (j : Nib) : Held (V := V) (kidsOf g l j) := by
  rw [kidsOf]
  split
  · exact ⟨by simp [isValueCollapsed], fun _ => trivial⟩
  · trivial

theorem expandValue_held {i : Info V} {c : Nib → BNode V} (h : ∀ j, Held (c j)) {i' : Info V} {c' : Nib → BNode V}
    (he : (expandValue E D i c).1 = .mk i' c') : ∀ j, Held (c' j) := by
  rw [expandValue] at he
  split at he
  · split at he
    · cases he; exact h
    · split at he <;> (cases he; exact h)
  · cases he; exact h

theorem afterDecode_held {i : Info V} {c : Nib → BNode V} (h : ∀ j, Held (c j)) {i' : Info V} {c' : Nib → BNode V}
    (he : (afterDecode E D (.mk i c)).1 = .mk i' c') : ∀ j, Held (c' j) := by
  simp only [afterDecode] at he
  generalize (if inErrorStatus E i c then { i with hash := some (emptyHash E) } else i) = i2 at he
  split at he
  · cases he; exact h
  · exact expandValue_held h he

theorem expandNode_held {g : UInt64} {i : Info V} {c : Nib → BNode V} (h : ∀ j, Held (c j)) {i' : Info V} {c' : Nib → BNode V}
    (he : (expandNode E D g i c).1 = .mk i' c') : ∀ j, Held (c' j) := by
  rw [expandNode] at he
  split at he
  · cases he; exact h
  · split at he
    · cases he; exact h
    · rename_i n hn
      obtain ⟨bs, -, hn⟩ := Option.bind_eq_some_iff.1 hn
      rw [deserB] at hn
      obtain ⟨hd, -, hn⟩ := Option.bind_eq_some_iff.1 hn
      obtain ⟨k, hk, hn⟩ := Option.bind_eq_some_iff.1 hn
      obtain ⟨w, -, rfl⟩ := Option.map_eq_some_iff.1 hn
      have hkh : ∀ j, Held (k.1 j) := by
        split at hk
        · obtain ⟨r, -, rfl⟩ := Option.map_eq_some_iff.1 hk
          exact kidsOf_held _ _
        · cases hk; exact h
      exact afterDecode_held hkh he

theorem full_held {i : Info V} {d : Nib → BNode V} {p : List Nib} {v : Option V} {c : Nib → Node V} (h : Full E D i d p v c) :
    isValueCollapsed i = false := by
  rw [isValueCollapsed, h.value]
  cases v with
  | some x => simp
  | none =>
    have : i.vhash = none := by
      rcases h.ok.value with ⟨-, h2⟩ | ⟨-, -, x, hx, -⟩
      · rcases h2 with h2 | h2 <;> simpa using h2
      · cases hx
    simp [this]

/-- The node after the expansion at the beginning. -/
theorem opened_spec (hE : E.Lawful) (g : UInt64) {i : Info V} {d : Nib → BNode V} {p : List Nib} {v : Option V}
    {c : Nib → Node V} (h : Rep E D (.mk i d) (.mk p v c)) (hw : WFRoot (.mk p v c)) :
    ∃ i1 d1, opened E D g i d = (.mk i1 d1, true) ∧ InfoOK E D i1 p v c ∧ (∀ j, Rep E D (d1 j) (c j)) ∧
      (Held (.mk i d) → i1.value = v ∧ ∀ j, Held (d1 j)) := by
  rw [opened]
  obtain ⟨i1, d1, h1, h2⟩ := expand_spec hE g h hw
  rw [fullExpand] at h1
  split
  · rename_i hc
    rw [if_pos hc] at h1
    refine ⟨i1, d1, h1, h2.ok, h2.kids, fun hh => ⟨h2.value, ?_⟩⟩
    exact expandNode_held hh.2 (by rw [h1])
  · rename_i hc
    obtain ⟨p', v', c', he, h⟩ := h
    cases he
    rcases h with h | ⟨hi, hk⟩
    · exact absurd (hashOnly_collapsed hE h) hc
    · refine ⟨i, d, rfl, hi, hk, fun hh => ⟨?_, hh.2⟩⟩
      rw [if_neg hc, expandValue, if_neg (by simp [hh.1])] at h1
      cases h1
      exact h2.value

/-- The value and the line of a node. -/
theorem ownLine_spec (hE : E.Lawful) {txt : V → Bytes} (w : Bool) (q : List Nib) {i : Info V} {d : Nib → BNode V}
    {p : List Nib} {v : Option V} {c : Nib → Node V} (ht : Plain txt v) (hi : InfoOK E D i p v c) (hk : ∀ j, Rep E D (d j) (c j)) :
    ∃ l i2, ownLine E D txt w q i d = (l, .mk i2 d) ∧ InfoOK E D i2 p v c ∧
      ∃ es, (∀ rest, readText (l ++ rest) = es.map (entry txt) ++ readText rest) ∧ es.Sublist (meant w [(q ++ p, v)]) ∧
        (w = false ∨ i.value = v → es = meant w [(q ++ p, v)]) := by
  obtain ⟨i2, h1, h2, -⟩ := expandValue_spec hE hi hk
  rw [ownLine]
  have hline : ∀ rest, readText (line E txt q i2 d ++ rest) = [(q ++ p, v)].map (entry txt) ++ readText rest := by
    intro rest
    rw [readText_line E q i2 d (by rw [h2.value]; exact ht), h2.ok.pre, h2.value]
    rfl
  split
  · rename_i hc
    rw [h1]
    refine ⟨_, i2, rfl, h2.ok, [(q ++ p, v)], hline, ?_, ?_⟩
    · cases w with
      | false => exact List.Sublist.refl _
      | true =>
        have hs : i.value.isSome = true := by simpa using hc
        rcases hi.value with ⟨hv, -⟩ | ⟨hv, -⟩
        · rw [hv] at hs; simp [meant, hs]
        · rw [hv] at hs; cases hs
    · intro _
      cases w with
      | false => rfl
      | true =>
        have hs : i.value.isSome = true := by simpa using hc
        rcases hi.value with ⟨hv, -⟩ | ⟨hv, -⟩
        · rw [hv] at hs; simp [meant, hs]
        · rw [hv] at hs; cases hs
  · rename_i hc
    simp only [not_or, Bool.not_eq_false] at hc
    refine ⟨_, i, rfl, hi, [], fun rest => rfl, List.nil_sublist _, ?_⟩
    rintro (hw | hv)
    · exact absurd hc.1 (by simp [hw])
    · rw [hv] at hc
      simp [meant, hc.1, hc.2]

/-- The loop over the children. -/
theorem kids_spec {txt : V → Bytes} (w : Bool) {c : Nib → Node V} {d : Nib → BNode V} {held : Prop}
    (step : Nib → BNode V → Option (Bytes × BNode V)) (all : Nib → List (List Nib × Option V))
    (hall : ∀ j, (c j).isSome = false → all j = [])
    (hk : ∀ j, Rep E D (d j) (c j))
    (hs : ∀ j, (c j).isSome = true → ∃ text b', step j (d j) = some (text, b') ∧ Printed E D txt w text b' (c j) (all j) held) :
    ∀ (l : List Nib) (x : Bytes × (Nib → BNode V)) (es0 all0 : List (List Nib × Option V)),
      (∀ j, Rep E D (x.2 j) (c j)) → (∀ rest, readText (x.1 ++ rest) = es0.map (entry txt) ++ readText rest) →
      es0.Sublist (meant w all0) → (w = false ∨ held → es0 = meant w all0) →
      ∃ y, l.foldl (fun s j => s.bind fun (x : Bytes × (Nib → BNode V)) =>
          if (d j).isSome then (step j (d j)).map fun r => (x.1 ++ r.1, setKid x.2 j r.2) else some x) (some x) = some y ∧
        (∀ j, Rep E D (y.2 j) (c j)) ∧
        ∃ es, (∀ rest, readText (y.1 ++ rest) = es.map (entry txt) ++ readText rest) ∧
          es.Sublist (meant w (all0 ++ l.flatMap all)) ∧ (w = false ∨ held → es = meant w (all0 ++ l.flatMap all)) := by
  intro l
  induction l with
  | nil =>
    intro x es0 all0 h1 h2 h3 h4
    exact ⟨x, rfl, h1, es0, h2, by simpa using h3, by simpa using h4⟩
  | cons j l ih =>
    intro x es0 all0 h1 h2 h3 h4
    rw [List.foldl_cons, Option.bind_some]
    by_cases hj : (d j).isSome = true
    · have hcj : (c j).isSome = true := by rw [← (hk j).isSome]; exact hj
      obtain ⟨text, b', e1, e2⟩ := hs j hcj
      obtain ⟨es, g1, g2, g3⟩ := e2.tells
      rw [if_pos hj, e1, Option.map_some]
      obtain ⟨y, y1, y2, y3⟩ := ih (x.1 ++ text, setKid x.2 j b') (es0 ++ es) (all0 ++ all j) (by
          intro k
          simp only [setKid]
          split
          · rename_i hkj; subst hkj; exact e2.rep
          · exact h1 k)
        (by
          intro rest
          simp only
          rw [List.append_assoc, h2, g1, List.map_append, List.append_assoc])
        (by rw [meant_append]; exact h3.append g2)
        (by intro hh; rw [meant_append, h4 hh, g3 hh])
      refine ⟨y, y1, y2, ?_⟩
      rw [List.flatMap_cons, ← List.append_assoc]
      exact y3
    · have hcj : (c j).isSome = false := by
        rw [← (hk j).isSome]
        simpa using hj
      rw [if_neg hj, List.flatMap_cons, hall j hcj, List.nil_append]
      exact ih x es0 all0 h1 h2 h3 h4

/-- What a call prints and leaves behind. -/
theorem printF_spec (hE : E.Lawful) (g : UInt64) {txt : V → Bytes} (w : Bool) : ∀ (f : Nat) (q : List Nib)
    {b : BNode V} {a : Node V}, Rep E D b a → WFRoot a → (∀ e ∈ visits q a, Plain txt e.2) → tall a < f →
    ∃ text b', printF E D g txt w f q b = some (text, b') ∧ Printed E D txt w text b' a (visits q a) (Held b) := by
  intro f
  induction f with
  | zero => intro q b a _ _ _ h; omega
  | succ f ih =>
    intro q b a hr hw ht hf
    cases a with
    | nil => exact hw.elim
    | mk p v c =>
      cases b with
      | nil => exact absurd (show Node.mk p v c = .nil from hr) (by simp)
      | mk i d =>
        obtain ⟨i1, d1, o1, o2, o3, o4⟩ := opened_spec hE g hr hw
        obtain ⟨l, i2, l1, l2, es0, l3, l4, l5⟩ := ownLine_spec hE w q (ht _ (by rw [visits]; exact List.mem_cons_self)) o2 o3
        rw [printF, o1]
        simp only [l1]
        have hkid : ∀ j, (c j).isSome = true → ∃ text b', printF E D g txt w f (q ++ i2.pre ++ [j]) (d1 j) = some (text, b') ∧
            Printed E D txt w text b' (c j) (visits (q ++ p ++ [j]) (c j)) (Held (.mk i d)) := by
          intro j hj
          have := tall_kid p v c j
          obtain ⟨text, b', h1, h2⟩ := ih (q ++ i2.pre ++ [j]) (o3 j) (WF.root (WFRoot.child hw j) hj)
            (by
              intro e he
              rw [l2.pre] at he
              refine ht e ?_
              rw [visits]
              exact List.mem_cons_of_mem _ (List.mem_flatMap.2 ⟨j, mem_nibbles j, he⟩)) (by omega)
          refine ⟨text, b', h1, ?_⟩
          rw [l2.pre] at h2
          obtain ⟨es, e1, e2, e3⟩ := h2.tells
          refine ⟨h2.rep, es, e1, e2, ?_⟩
          rintro (hh | hh)
          · exact e3 (Or.inl hh)
          · exact e3 (Or.inr ((o4 hh).2 j))
        obtain ⟨y, y1, y2, es, y3, y4, y5⟩ := kids_spec (E := E) (D := D) (txt := txt) w (c := c) (d := d1) (held := Held (.mk i d))
          (fun j x => printF E D g txt w f (q ++ i2.pre ++ [j]) x) (fun j => visits (q ++ p ++ [j]) (c j))
          (by
            intro j hj
            cases hc : c j with
            | nil => rfl
            | mk p' v' c' => rw [hc] at hj; cases hj)
          o3 hkid nibbles (l, d1) es0 [(q ++ p, v)] o3 l3 l4
          (by
            rintro (hh | hh)
            · exact l5 (Or.inl hh)
            · exact l5 (Or.inr (o4 hh).1))
        refine ⟨y.1, .mk i2 y.2, ?_, ⟨p, v, c, rfl, Or.inr ⟨l2, y2⟩⟩, es, y3, ?_, ?_⟩
        · rw [y1, Option.map_some]
        · rw [visits]; exact y4
        · intro hh; rw [visits]; exact y5 hh

/-! ### Sessions -/

/-- What a line says of a value: the key in nibbles and the text. -/
def valueLines (b : Bytes) : List (List Nib × Bytes) :=
  (readText b).filterMap fun e => e.bind fun e => e.2.map fun t => (e.1, t)

/-- The values of the list, as lines are to say. -/
def stated (txt : V → Bytes) (l : List (Bytes × Option V)) : List (List Nib × Bytes) :=
  l.filterMap fun e => e.2.map fun x => (keyToPrefix e.1, txt x)

theorem session_rep (hE : E.Lawful) (ops : List (SOp V)) (hA : Apart E (along ops)) {D : Disk} (hD : D.ok) :
    SInv E (after E D ops) (ops.filterMap SOp.call) := by
  have := (outs_spec hE hA (noFaults_harmless E _) ops [] ⟨openTrie none, D⟩ ⟨hD, rep_openNil⟩
    fun pre hp => ⟨pre, hp, rfl⟩).2
  rwa [List.nil_append] at this

theorem lines_nil : readText [] = [] := rfl

theorem printed_text {txt : V → Bytes} {w : Bool} {text : Bytes} {b' : BNode V} {a : Node V} {all : List (List Nib × Option V)}
    {held : Prop} (h : Printed E D txt w text b' a all held) : ∃ es, readText text = es.map (entry txt) ∧
      es.Sublist (meant w all) ∧ (w = false ∨ held → es = meant w all) := by
  obtain ⟨es, h1, h2⟩ := h.tells
  refine ⟨es, ?_, h2⟩
  have := h1 []
  rwa [List.append_nil, lines_nil, List.append_nil] at this

/-- The lines with values, for a list of nodes. -/
theorem valueLines_entries (txt : V → Bytes) {text : Bytes} {es : List (List Nib × Option V)} (h : readText text = es.map (entry txt)) :
    valueLines text = es.filterMap fun e => e.2.map fun x => (e.1, txt x) := by
  rw [valueLines, h, List.filterMap_map]
  congr 1
  funext e
  obtain ⟨p, v⟩ := e
  cases v <;> rfl

theorem stated_visits {m : MTrie V} (txt : V → Bytes)
    (hkey : ∀ e ∈ visits [] m.root, e.2.isSome = true → ∃ k, e.1 = keyToPrefix k) :
    ((visits [] m.root).filterMap fun e => e.2.map fun x => (e.1, txt x)) =
      stated txt (((visits [] m.root).filter fun e => e.2.isSome).map keyed) := by
  rw [stated, List.filterMap_map]
  generalize visits [] m.root = l at hkey
  induction l with
  | nil => rfl
  | cons e l ih =>
    have ih := ih fun e he => hkey e (List.mem_cons_of_mem _ he)
    obtain ⟨p, v⟩ := e
    cases v with
    | none =>
      rw [List.filter_cons_of_neg (by simp), List.filterMap_cons_none (by rfl)]
      exact ih
    | some x =>
      obtain ⟨k, hk⟩ := hkey (p, some x) List.mem_cons_self rfl
      simp only at hk
      subst hk
      rw [List.filter_cons_of_pos (by rfl), List.filterMap_cons_some (b := (keyToPrefix k, txt x)) (by rfl),
        List.filterMap_cons_some (b := (keyToPrefix k, txt x)) (by simp only [Function.comp, keyed_key, Option.map_some]), ih]

/-- The node that a call leaves behind does not depend on the texts of the values. -/
theorem printF_node (E : Env V) (D : Disk) (g : UInt64) (txt txt' : V → Bytes) (w : Bool) : ∀ (f : Nat) (q : List Nib) (b : BNode V),
    (printF E D g txt w f q b).map (·.2) = (printF E D g txt' w f q b).map (·.2) := by
  intro f
  induction f with
  | zero => intro q b; rfl
  | succ f ih =>
    intro q b
    cases b with
    | nil => rfl
    | mk i c =>
      rw [printF, printF]
      rcases opened E D g i c with ⟨n, ok⟩
      cases ok with
      | false => rfl
      | true =>
        cases n with
        | nil => rfl
        | mk i1 c1 =>
          simp only
          have hown : (ownLine E D txt w q i1 c1).2 = (ownLine E D txt' w q i1 c1).2 := by
            rw [ownLine, ownLine]
            split
            · rcases (expandValue E D i1 c1).1 with _ | ⟨i', c'⟩ <;> rfl
            · rfl
          generalize ownLine E D txt w q i1 c1 = o at hown
          generalize ownLine E D txt' w q i1 c1 = o' at hown
          obtain ⟨l, n⟩ := o
          obtain ⟨l', n'⟩ := o'
          simp only at hown
          subst hown
          cases n with
          | nil => rfl
          | mk i2 c2 =>
            simp only [Option.map_map]
            have hfold : ∀ (js : List Nib) (s s' : Option (Bytes × (Nib → BNode V))), s.map (·.2) = s'.map (·.2) →
                (js.foldl (fun s j => s.bind fun (x : Bytes × (Nib → BNode V)) =>
                  if (c2 j).isSome then
                    (printF E D g txt w f (q ++ i2.pre ++ [j]) (c2 j)).map fun r => (x.1 ++ r.1, setKid x.2 j r.2)
                  else some x) s).map (·.2) =
                (js.foldl (fun s j => s.bind fun (x : Bytes × (Nib → BNode V)) =>
                  if (c2 j).isSome then
                    (printF E D g txt' w f (q ++ i2.pre ++ [j]) (c2 j)).map fun r => (x.1 ++ r.1, setKid x.2 j r.2)
                  else some x) s').map (·.2) := by
              intro js
              induction js with
              | nil => intro s s' h; exact h
              | cons j js ihj =>
                intro s s' h
                rw [List.foldl_cons, List.foldl_cons]
                apply ihj
                cases s with
                | none =>
                  cases s' with
                  | none => rfl
                  | some y => cases h
                | some x =>
                  cases s' with
                  | none => cases h
                  | some y =>
                    simp only [Option.map_some, Option.some.injEq] at h
                    simp only [Option.bind_some]
                    split
                    · have := ih (q ++ i2.pre ++ [j]) (c2 j)
                      generalize printF E D g txt w f (q ++ i2.pre ++ [j]) (c2 j) = u at this
                      generalize printF E D g txt' w f (q ++ i2.pre ++ [j]) (c2 j) = u' at this
                      cases u with
                      | none =>
                        cases u' with
                        | none => rfl
                        | some y => cases this
                      | some a =>
                        cases u' with
                        | none => cases this
                        | some b =>
                          simp only [Option.map_some, Option.some.injEq] at this
                          simp [this, h]
                    · simp [h]
            have := hfold nibbles (some (l, c2)) (some (l', c2)) rfl
            have e1 : (((fun x : Bytes × BNode V => x.2) ∘ fun x : Bytes × (Nib → BNode V) => (x.1, BNode.mk i2 x.2))) =
              (BNode.mk i2) ∘ (fun x : Bytes × (Nib → BNode V) => x.2) := rfl
            rw [e1, ← Option.map_map, ← Option.map_map, this]

theorem joined_eq (l : List Bytes) : joined l = List.intercalate (ascii [',', ' ']) l := by
  induction l with
  | nil => rfl
  | cons x l ih =>
    cases l with
    | nil => simp [joined, List.intercalate]
    | cons y l =>
      rw [joined, ih]
      simp [List.intercalate]

/-! ### C163 -/

/-- The texts of the values of a map can be told from what follows them. -/
def PlainMap (txt : V → Bytes) (m : Bytes → Option V) : Prop := ∀ k, Plain txt (m k)

/-- The claim for a printed text: every line can be read, and the lines with a value say exactly the contents, in ascending
order of the keys. -/
def Tells (txt : V → Bytes) (text : Bytes) (m : Bytes → Option V) : Prop :=
  (∀ e ∈ readText text, e.isSome = true) ∧ ∃ l, Ascending l ∧ Holding l m ∧ valueLines text = stated txt l

theorem plain_visits {txt : V → Bytes} {t : MTrie V} {m : Bytes → Option V} (h : Inv t m) (hp : PlainMap txt m) :
    ∀ e ∈ visits [] t.root, Plain txt e.2 := by
  intro e he x hx
  obtain ⟨hkey, -, hhold⟩ := listing h
  have hm : keyed e ∈ ((visits [] t.root).filter fun e => e.2.isSome).map keyed :=
    List.mem_map.2 ⟨e, List.mem_filter.2 ⟨he, by rw [hx]; rfl⟩, rfl⟩
  obtain ⟨y, hy1, hy2⟩ := (hhold (keyed e).1 (keyed e).2).1 hm
  have : y = x := by
    have : (keyed e).2 = e.2 := rfl
    rw [this, hx] at hy1
    exact (Option.some.inj hy1).symm
  subst this
  exact hp _ y hy2

theorem entries_some (txt : V → Bytes) {text : Bytes} {es : List (List Nib × Option V)} (h : readText text = es.map (entry txt)) :
    ∀ e ∈ readText text, e.isSome = true := by
  rw [h]
  intro e he
  obtain ⟨x, -, rfl⟩ := List.mem_map.1 he
  rfl

/-- **C163.** After any sequence of calls, with commits, collapsed nodes and reopened tries, `String` has a readable line
for every node, and the lines with a value say exactly what is stored, key and text, in ascending order of the keys. -/
theorem C163_string (hE : E.Lawful) (ops : List (SOp V)) (hk : ClearOps [] ops) (hA : Apart E (along ops)) (D : Disk) (hD : D.ok)
    (txt : V → Bytes) (ht : PlainMap txt (contents ops)) :
    ∃ N, ∀ n, N ≤ n → ∃ text t', printTrie E (after E D ops).D txt false n (after E D ops).t = some (text, t') ∧
      Tells txt text (contents ops) := by
  have hs := session_rep hE ops hA hD
  have hinv := clear_inv ops [] inv_nil hk
  rw [List.nil_append] at hinv
  obtain ⟨hkey, hasc, hhold⟩ := listing hinv
  refine ⟨tall ((newTrie (V := V)).run (ops.filterMap SOp.call)).root + 1, fun n hn => ?_⟩
  obtain ⟨text, b', h1, h2⟩ := printF_spec hE (after E D ops).t.gen (txt := txt) false n [] hs.rep hinv.wf (plain_visits hinv ht) (by omega)
  obtain ⟨es, e1, -, e3⟩ := printed_text h2
  refine ⟨text, _, by rw [printTrie, h1, Option.map_some], entries_some txt e1, _, hasc, hhold, ?_⟩
  rw [valueLines_entries txt e1, e3 (Or.inl rfl), meant, if_neg (by simp), stated_visits txt hkey]

/-- **C163, what holds for `PrintValues`:** every line is one of the values stored, with its key, in ascending order.  If no
node in memory has dropped its value, all values are there. -/
theorem C163_values_partial (hE : E.Lawful) (ops : List (SOp V)) (hk : ClearOps [] ops) (hA : Apart E (along ops)) (D : Disk)
    (hD : D.ok) (txt : V → Bytes) (ht : PlainMap txt (contents ops)) :
    ∃ N, ∀ n, N ≤ n → ∃ text t', printTrie E (after E D ops).D txt true n (after E D ops).t = some (text, t') ∧
      (∃ l, Ascending l ∧ Holding l (contents ops) ∧ (valueLines text).Sublist (stated txt l)) ∧
      (∀ e ∈ readText text, ∃ p t, e = some (p, some t)) ∧
      (Held (after E D ops).t.root → Tells txt text (contents ops)) := by
  have hs := session_rep hE ops hA hD
  have hinv := clear_inv ops [] inv_nil hk
  rw [List.nil_append] at hinv
  obtain ⟨hkey, hasc, hhold⟩ := listing hinv
  refine ⟨tall ((newTrie (V := V)).run (ops.filterMap SOp.call)).root + 1, fun n hn => ?_⟩
  obtain ⟨text, b', h1, h2⟩ := printF_spec hE (after E D ops).t.gen (txt := txt) true n [] hs.rep hinv.wf (plain_visits hinv ht) (by omega)
  obtain ⟨es, e1, e2, e3⟩ := printed_text h2
  have hm : ((meant true (visits [] ((newTrie (V := V)).run (ops.filterMap SOp.call)).root)).filterMap
      fun e => e.2.map fun x => (e.1, txt x)) = (visits [] ((newTrie (V := V)).run (ops.filterMap SOp.call)).root).filterMap
      fun e => e.2.map fun x => (e.1, txt x) := by
    rw [meant, if_pos rfl, List.filterMap_filter]
    congr 1
    funext e
    obtain ⟨p, v⟩ := e
    cases v <;> rfl
  refine ⟨text, _, by rw [printTrie, h1, Option.map_some], ⟨_, hasc, hhold, ?_⟩, ?_, fun hh => ⟨entries_some txt e1, _, hasc, hhold, ?_⟩⟩
  · rw [valueLines_entries txt e1, ← stated_visits txt hkey, ← hm]
    exact e2.filterMap _
  · rw [e1]
    intro e he
    obtain ⟨x, hx, rfl⟩ := List.mem_map.1 he
    have := e2.subset hx
    rw [meant, if_pos rfl] at this
    obtain ⟨y, hy⟩ := Option.isSome_iff_exists.1 (List.mem_filter.1 this).2
    exact ⟨x.1, txt y, by rw [entry, hy]; rfl⟩
  · rw [valueLines_entries txt e1, e3 (Or.inr hh), hm, stated_visits txt hkey]

/-- **C163.** A trie that has just been reopened from its root hash prints all its values. -/
theorem C163_reopened (hE : E.Lawful) (ops : List (SOp V)) (L : Limits) (g : UInt64) (hk : ClearOps [] (ops ++ [.reopen L g]))
    (hA : Apart E (along (ops ++ [.reopen L g]))) (D : Disk) (hD : D.ok) (txt : V → Bytes)
    (ht : PlainMap txt (contents (ops ++ [.reopen L g]))) :
    ∃ N, ∀ n, N ≤ n → ∃ text t', printTrie E (after E D (ops ++ [.reopen L g])).D txt true n (after E D (ops ++ [.reopen L g])).t =
      some (text, t') ∧ Tells txt text (contents (ops ++ [.reopen L g])) := by
  obtain ⟨N, h⟩ := C163_values_partial hE _ hk hA D hD txt ht
  refine ⟨N, fun n hn => ?_⟩
  obtain ⟨text, t', h1, -, -, h4⟩ := h n hn
  refine ⟨text, t', h1, h4 ?_⟩
  rw [after, srun, List.foldl_append]
  exact ⟨by simp [isValueCollapsed], fun _ => trivial⟩

/-- **C163.** Printing changes no later answer, whatever the keys and the texts. -/
theorem C163_unchanged (hE : E.Lawful) (ops later : List (SOp V)) (hA : Apart E (along (ops ++ later))) (D : Disk) (hD : D.ok)
    (txt : V → Bytes) (w : Bool) :
    ∃ N, ∀ n, N ≤ n → ∃ text t', printTrie E (after E D ops).D txt w n (after E D ops).t = some (text, t') ∧
      outs E noFaults ⟨t', (after E D ops).D⟩ later = outs E noFaults (after E D ops) later := by
  have hA' : ∀ pre, pre <+: ops → along (ops ++ later) ((newTrie (V := V)).run ([] ++ pre.filterMap SOp.call)).root :=
    fun pre hp => ⟨pre, hp.trans (List.prefix_append _ _), rfl⟩
  have hs : SInv E (after E D ops) (ops.filterMap SOp.call) := by
    have := (outs_spec hE hA (noFaults_harmless E _) ops [] ⟨openTrie none, D⟩ ⟨hD, rep_openNil⟩ hA').2
    rwa [List.nil_append] at this
  have hl : ∀ pre, pre <+: later →
      along (ops ++ later) ((newTrie (V := V)).run (ops.filterMap SOp.call ++ pre.filterMap SOp.call)).root := by
    intro pre hp
    obtain ⟨r, rfl⟩ := hp
    exact ⟨ops ++ pre, ⟨r, by simp⟩, by simp⟩
  refine ⟨tall ((newTrie (V := V)).run (ops.filterMap SOp.call)).root + 1, fun n hn => ?_⟩
  obtain ⟨text, b', h1, h2⟩ := printF_spec hE (after E D ops).t.gen (txt := fun _ => []) w n [] hs.rep (wf_run _)
    (by intro e _ x _; simp) (by omega)
  have hnode := printF_node E (after E D ops).D (after E D ops).t.gen txt (fun _ => []) w n [] (after E D ops).t.root
  rw [h1, Option.map_some] at hnode
  obtain ⟨r, hr1, hr2⟩ := Option.map_eq_some_iff.1 hnode
  refine ⟨r.1, { (after E D ops).t with root := b' }, ?_, ?_⟩
  · rw [printTrie, hr1, Option.map_some, hr2]
  · rw [(outs_spec hE hA (noFaults_harmless E _) later _ (after E D ops) hs hl).1,
      (outs_spec hE hA (noFaults_harmless E _) later (ops.filterMap SOp.call) ⟨{ (after E D ops).t with root := b' }, (after E D ops).D⟩
        ⟨hs.disk, h2.rep⟩ hl).1]

theorem mem_stated (txt : V → Bytes) {l : List (Bytes × Option V)} {m : Bytes → Option V} (h : Holding l m) (k : Bytes) (t : Bytes) :
    (keyToPrefix k, t) ∈ stated txt l ↔ (m k).map txt = some t := by
  rw [stated, List.mem_filterMap]
  constructor
  · rintro ⟨⟨k', v⟩, he, hv⟩
    obtain ⟨x, rfl, hx⟩ := (h k' v).1 he
    simp only [Option.map_some, Option.some.injEq, Prod.mk.injEq] at hv
    have : k' = k := keyToPrefix_inj hv.1
    subst this
    rw [hx, Option.map_some, hv.2]
  · intro hm
    obtain ⟨x, hx, rfl⟩ := Option.map_eq_some_iff.1 hm
    exact ⟨(k, some x), (h k (some x)).2 ⟨x, rfl, hx⟩, rfl⟩

/-- **C163.** Texts tell tries apart: two tries that are printed alike hold the same keys, with values of the same texts. -/
theorem C163_apart {txt : V → Bytes} {m m' : Bytes → Option V} {text : Bytes} (h : Tells txt text m) (h' : Tells txt text m')
    (k : Bytes) : (m k).map txt = (m' k).map txt := by
  obtain ⟨-, l, -, hl, he⟩ := h
  obtain ⟨-, l', -, hl', he'⟩ := h'
  ext t
  rw [← mem_stated txt hl, ← mem_stated txt hl', ← he, ← he']

/-- **C163.** `ValueString` gives the texts of the values in ascending order of the keys, if nothing is stored under the
empty key. -/
theorem C163_valueString_partial (hE : E.Lawful) (ops : List (SOp V)) (hk : ClearOps [] ops) (hA : Apart E (along ops)) (D : Disk)
    (hD : D.ok) (L : Limits) (txt : V → Bytes) (h0 : contents ops [] = none) :
    ∃ l, Ascending l ∧ Holding l (contents ops) ∧ ∃ N, ∀ n, N ≤ n →
      valueString E noFaults L (after E D ops).D txt (after E D ops).t n =
        .ok (60 :: (List.intercalate [44, 32] (l.filterMap fun e => e.2.map txt) ++ [62])) := by
  obtain ⟨N, l, h1, h2, h3⟩ := C12_forward_partial hE ops hk hA D hD L
  refine ⟨l, h2, h3, N, fun n hn => ?_⟩
  rw [valueString, h1 n hn]
  have hp : (passed l).map (fun e => txt e.2) = l.filterMap fun e => e.2.map txt := by
    rw [passed, List.map_filterMap]
    apply List.filterMap_congr
    intro e he
    rw [if_neg]
    · cases e.2 <;> rfl
    · intro hz
      obtain ⟨x, -, hx⟩ := (h3 e.1 e.2).1 he
      rw [hz, h0] at hx
      cases hx
  simp only [hp, joined_eq]
  rfl

/-! ### Examples -/

/-- Values printed in hexadecimal digits. -/
def hexTxt (b : Bytes) : Bytes := Hex.hexEncode b

/-- Three keys, one of them the beginning of another, committed and reopened. -/
def demoPrint : List (SOp Bytes) := [.put [0x12] [1], .put [0x12, 0x34] [2, 255], .put [0x1A] [], .reopen realLimits 5]

/-- The text of a trie, if the bound was large enough. -/
def textOf (ops : List (SOp Bytes)) (txt : Bytes → Bytes) (w : Bool) : Option Bytes :=
  (printTrie toyE (after toyE freshDisk ops).D txt w 9 (after toyE freshDisk ops).t).map (·.1)

/-- The trie of the example branches, and what is read from its text are its contents. -/
example : (textOf demoPrint hexTxt false).map readText =
    some [some ([1], none), some ([1, 2], some [48, 49]), some ([1, 2, 3, 4], some [48, 50, 102, 102]), some ([1, 10], some [])] ∧
  (textOf demoPrint hexTxt true).map valueLines =
    some [([1, 2], [48, 49]), ([1, 2, 3, 4], [48, 50, 102, 102]), ([1, 10], [])] := by
  decide +kernel

/-- Before it is hashed, a small trie is printed as two lines. -/
example : textOf [.put [0x12] [97], .put [0x12, 0x34] [98]] id true = some (ascii
    ['{', 'p', 'r', 'e', 'f', 'i', 'x', '=', '1', '2', ',', ' ', 'v', 'a', 'l', 'u', 'e', '=', 'a', ',', ' ', 'c', 'h', 'i', 'l', 'd', '[',
      '3', ']', ',', ' ', 'd', 'i', 'r', 't', 'y', '}', '\n', '1', '2', '3', '.', '{', 'p', 'r', 'e', 'f', 'i', 'x', '=', '4', ',', ' ',
      'v', 'a', 'l', 'u', 'e', '=', 'b', ',', ' ', 'c', 'h', 'i', 'l', 'd', '[', ']', ',', ' ', 'd', 'i', 'r', 't', 'y', '}', '\n']) := by
  decide +kernel

/-- The hypotheses of `C163_string` hold for the example. -/
example : ∃ N, ∀ n, N ≤ n → ∃ text t', printTrie toyE (after toyE freshDisk [.put [0x12, 0x34] [1], .put [0x12, 0x35] [2]]).D hexTxt false n
    (after toyE freshDisk [.put [0x12, 0x34] [1], .put [0x12, 0x35] [2]]).t = some (text, t') ∧
    Tells hexTxt text (contents [.put [0x12, 0x34] [1], .put [0x12, 0x35] [2]]) :=
  C163_string toyE_lawful _ (clearOps_prefixFree (prefixFree_fixed 2) _ [] (by simp) (by simp [SOp.key]))
    (apart_of (by decide +kernel) (by decide +kernel) (by decide +kernel)) _ freshDisk_ok hexTxt
    (by
      intro k x _
      refine ⟨?_, not_hex x⟩
      rw [hexTxt, Hex.hexEncode, List.mem_flatMap]
      rintro ⟨y, -, h⟩
      have hy := y.toNat_lt
      have hc : ∀ n : Fin 16, Hex.hexChar n.val ≠ 44 := by decide +kernel
      simp only [List.mem_cons, List.not_mem_nil, or_false] at h
      rcases h with h | h
      · exact hc ⟨_, by omega⟩ h.symm
      · exact hc ⟨_, by omega⟩ h.symm)

/-! ### What does not hold -/

/-- A value that is longer than the limit of `Commit`. -/
def longOps : List (SOp Bytes) := [.put [0x12] [1], .put [0x34] [1, 2, 3, 4], .commit ⟨100, 3⟩, .commit ⟨100, 3⟩]

/-- **C163, refuted for `PrintValues`.** A value longer than `maxValLength` (here 3) is dropped from memory by the second
`Commit`; `PrintValues` asks for the value before loading it and leaves the key out, although `Get` finds it and `String`
shows it. -/
theorem C163_long_refuted : contents longOps [0x34] = some [1, 2, 3, 4] ∧
    ((after toyE freshDisk longOps).t.get toyE (after toyE freshDisk longOps).D [0x34]).2 = some [1, 2, 3, 4] ∧
    (textOf longOps hexTxt false).map valueLines = some [([1, 2], [48, 49]), ([3, 4], [48, 49, 48, 50, 48, 51, 48, 52])] ∧
    (textOf longOps hexTxt true).map valueLines = some [([1, 2], [48, 49])] := by
  decide +kernel

/-- **C163, refuted for a storage that lost a node.** Nodes that cannot be loaded are left out of the text without a sign:
the trie opened from the root hash of a trie with two keys prints one of them, without the other; with nothing in the
storage it prints nothing at all. -/
theorem C163_missing_refuted :
    let s := after toyE freshDisk [.put [0x12, 0x34] [1], .put [0x12, 0x35] [2], .commit realLimits]
    let D : Disk := ⟨s.D.nodes.map fun f h => if h = nodeHash toyH toyRtl demoVh (leaf [] [1]) then none else f h, s.D.values⟩
    let t : BTrie Bytes := openTrie (some (s.t.hash toyE).2)
    ((printTrie toyE s.D hexTxt true 9 t).map fun r => valueLines r.1) = some [([1, 2, 3, 4], [48, 49]), ([1, 2, 3, 5], [48, 50])] ∧
    ((printTrie toyE D hexTxt true 9 t).map fun r => readText r.1) = some [some ([1, 2, 3, 5], some [48, 50])] ∧
    (printTrie toyE freshDisk hexTxt true 9 t).map (·.1) = some [] := by
  decide +kernel

/-- A text with a comma and a line break. -/
def forgedText : Bytes := ascii
  ['a', ',', ' ', 'c', 'h', 'i', 'l', 'd', '[', '3', ']', ',', ' ', 'd', 'i', 'r', 't', 'y', '}', '\n', '1', '2', '3', '.', '{', 'p', 'r', 'e',
    'f', 'i', 'x', '=', '4', ',', ' ', 'v', 'a', 'l', 'u', 'e', '=', 'b']

/-- **C163, refuted for any texts.** A value may contain the text of another line: a trie with one key is printed exactly
like a trie with two. -/
theorem C163_forged_refuted :
    textOf [.put [0x12] forgedText] id false = textOf [.put [0x12] [97], .put [0x12, 0x34] [98]] id false ∧
    (textOf [.put [0x12] forgedText] id false).isSome = true ∧
    contents [.put [0x12] forgedText] [0x12, 0x34] ≠ contents [.put [0x12] [97], .put [0x12, 0x34] [98]] [0x12, 0x34] := by
  decide +kernel

/-- **C163, refuted for the empty key.** `ValueString` leaves out the value under the empty key, which `String` shows. -/
theorem C163_empty_key_refuted :
    let s := after toyE freshDisk [.put [] [97], .put [0x12] [98]]
    contents [.put [] [97], .put [0x12] [98]] [] = some [97] ∧
    valueString toyE noFaults realLimits s.D id s.t 50 = .ok [60, 98, 62] := by
  decide +kernel

/-- **C163, refuted for saved tries.** The text is not a function of the contents: it shows caches as well, and hashing the
trie changes what is printed. -/
theorem C163_hashed_refuted : contents [.put [0x12] [97]] = contents [.put [0x12] [97], .hash] ∧
    textOf [.put [0x12] [97]] id false ≠ textOf [.put [0x12] [97], .hash] id false := by
  exact ⟨rfl, by decide +kernel⟩

end Verif.Trie.Show
