import Verif.Rlp.TypedThms

/-!
# Struct tags

`ProcessFields` and `parseTag` (`/repo/rlp/internal/rlpstruct/rlpstruct.go:104-191`).  The value of the tag `rlp` is given
(`StructTag.Get` is in the Go library); trimming removes the white space of ASCII.
-/

namespace Verif.Rlp
open Verif

/-- `Field` (`/repo/rlp/internal/rlpstruct/rlpstruct.go:30-36`), without the name; `tag`: the value of the tag `rlp`. -/
structure FieldIn where
  index : Nat
  exported : Bool
  ty : Ty
  tag : List Char

/-- `strings.Split` at commas. -/
def splitComma : List Char → List (List Char)
  | [] => [[]]
  | c :: s =>
    if c = ',' then [] :: splitComma s
    else match splitComma s with
      | [] => [[c]]
      | t :: l => (c :: t) :: l

def isBlank (c : Char) : Bool := c == ' ' || c == '\t' || c == '\n' || c == '\r' || c == '\x0b' || c == '\x0c'

/-- `strings.TrimSpace`. -/
def trim (s : List Char) : List Char := ((s.dropWhile isBlank).reverse.dropWhile isBlank).reverse

/-- The words of tags. -/
inductive Word where
  | empty
  | dash
  | nil
  | nilString
  | nilList
  | optional
  | tail
  deriving DecidableEq

/-- How a word is written. -/
def Word.text : Word → List Char
  | .empty => []
  | .dash => ['-']
  | .nil => ['n', 'i', 'l']
  | .nilString => ['n', 'i', 'l', 'S', 't', 'r', 'i', 'n', 'g']
  | .nilList => ['n', 'i', 'l', 'L', 'i', 's', 't']
  | .optional => ['o', 'p', 't', 'i', 'o', 'n', 'a', 'l']
  | .tail => ['t', 'a', 'i', 'l']

/-- The labels of the switch (`/repo/rlp/internal/rlpstruct/rlpstruct.go:149-186`). -/
def classify (t : List Char) : Option Word :=
  [Word.empty, .dash, .nil, .nilString, .nilList, .optional, .tail].find? (fun w => w.text = t)

/-- The words of a tag; `none`: an unknown one. -/
def tagWords (tag : List Char) : List (Option Word) := (splitComma tag).map (fun t => classify (trim t))

/-- `reflect.Slice`: `[]byte` and `RawValue` are of this kind, too. -/
def Ty.isSliceKind : Ty → Bool
  | .slice _ => true
  | .bytes => true
  | .raw => true
  | _ => false

/-- `field.Type.Elem` of a pointer. -/
def Ty.elem : Ty → Ty
  | .ptr t => t
  | t => t

/-- One round of the loop of `parseTag` (`/repo/rlp/internal/rlpstruct/rlpstruct.go:148-187`); with the tags, `Ignored`. -/
def parseWord (f : FieldIn) (last : Nat) (ts : Tags × Bool) : Option Word → Option (Tags × Bool)
  | some .empty => some ts
  | some .dash => some (ts.1, true)
  | some .nil => if f.ty.isPtr then some ({ ts.1 with nilOK := true, nilKind := f.ty.elem.defaultNil }, ts.2) else none
  | some .nilString => if f.ty.isPtr then some ({ ts.1 with nilOK := true, nilKind := .string }, ts.2) else none
  | some .nilList => if f.ty.isPtr then some ({ ts.1 with nilOK := true, nilKind := .list }, ts.2) else none
  | some .optional => if ts.1.tail then none else some ({ ts.1 with optional := true }, ts.2)
  | some .tail =>
    if f.index ≠ last then none
    else if ts.1.optional then none
    else if f.ty.isSliceKind then some ({ ts.1 with tail := true }, ts.2) else none
  | none => none

def parseWords (f : FieldIn) (last : Nat) : Tags × Bool → List (Option Word) → Option (Tags × Bool)
  | ts, [] => some ts
  | ts, t :: l =>
    match parseWord f last ts t with
    | none => none
    | some ts => parseWords f last ts l

/-- `parseTag` (`/repo/rlp/internal/rlpstruct/rlpstruct.go:147-191`). -/
def parseTag (f : FieldIn) (last : Nat) : Option (Tags × Bool) := parseWords f last ({}, false) (tagWords f.tag)

/-- `lastPublicField` (`/repo/rlp/internal/rlpstruct/rlpstruct.go:191-199`). -/
def lastPublic (fs : List FieldIn) : Nat := fs.foldl (fun last f => if f.exported then f.index else last) 0

/-- The first loop of `ProcessFields` (`/repo/rlp/internal/rlpstruct/rlpstruct.go:105-120`). -/
def gather (last : Nat) : List FieldIn → Option (List (FieldIn × Tags))
  | [] => some []
  | f :: fs =>
    if f.exported = false then gather last fs
    else match parseTag f last with
      | none => none
      | some (ts, ignored) =>
        if ignored then gather last fs
        else match gather last fs with
          | none => none
          | some l => some ((f, ts) :: l)

/-- The second loop (`/repo/rlp/internal/rlpstruct/rlpstruct.go:125-141`). -/
def consistent : Bool → List (FieldIn × Tags) → Bool
  | _, [] => true
  | any, (_, ts) :: l => if ts.optional || ts.tail then consistent true l else if any then false else consistent any l

/-- `ProcessFields` (`/repo/rlp/internal/rlpstruct/rlpstruct.go:104-145`). -/
def processFields (fs : List FieldIn) : Option (List (FieldIn × Tags)) :=
  match gather (lastPublic fs) fs with
  | none => none
  | some l => if consistent false l then some l else none

/-- The fields, for the writer and the decoder (`structFields`, `/repo/rlp/typecache.go:121-152`). -/
def toFlds : List (FieldIn × Tags) → Flds
  | [] => .nil
  | (f, ts) :: l => .cons ts f.ty (toFlds l)

/-! ### What tags are admitted -/

theorem C114_words (t : List Char) (w : Word) : classify t = some w ↔ t = w.text := by
  constructor
  · intro h
    have := List.find?_some h
    simpa using (of_decide_eq_true this).symm
  · rintro rfl
    cases w <;> rfl

/-- The white space of ASCII. -/
def blanks : List Char := [' ', '\t', '\n', '\r', '\x0b', '\x0c']

/-- Texts joined with commas. -/
def joinComma : List (List Char) → List Char
  | [] => []
  | [t] => t
  | t :: u :: l => t ++ ',' :: joinComma (u :: l)

theorem splitComma_plain {t : List Char} (h : ',' ∉ t) : splitComma t = [t] := by
  induction t with
  | nil => rfl
  | cons c t ih =>
    simp only [List.mem_cons, not_or] at h
    rw [splitComma, if_neg (fun e => h.1 e.symm), ih h.2]

theorem splitComma_append {t s : List Char} (h : ',' ∉ t) : splitComma (t ++ ',' :: s) = t :: splitComma s := by
  induction t with
  | nil => simp [splitComma]
  | cons c t ih =>
    simp only [List.mem_cons, not_or] at h
    rw [List.cons_append, splitComma, if_neg (fun e => h.1 e.symm), ih h.2]

theorem splitComma_join {ts : List (List Char)} (h0 : ts ≠ []) (h : ∀ t ∈ ts, ',' ∉ t) : splitComma (joinComma ts) = ts := by
  induction ts with
  | nil => exact absurd rfl h0
  | cons t l ih =>
    cases l with
    | nil => exact splitComma_plain (h t (by simp))
    | cons u l =>
      rw [joinComma, splitComma_append (h t (by simp)), ih (by simp) fun x hx => h x (List.mem_cons_of_mem _ hx)]

theorem isBlank_mem {c : Char} (h : c ∈ blanks) : isBlank c = true := by
  simp only [blanks, List.mem_cons, List.not_mem_nil, or_false] at h
  rcases h with rfl | rfl | rfl | rfl | rfl | rfl <;> rfl

theorem dropWhile_blanks {a b : List Char} (h : ∀ c ∈ a, c ∈ blanks) : (a ++ b).dropWhile isBlank = b.dropWhile isBlank := by
  induction a with
  | nil => rfl
  | cons c a ih =>
    rw [List.cons_append, List.dropWhile_cons_of_pos (isBlank_mem (h c (by simp))), ih fun x hx => h x (List.mem_cons_of_mem _ hx)]

theorem trim_word {a b : List Char} (w : Word) (ha : ∀ c ∈ a, c ∈ blanks) (hb : ∀ c ∈ b, c ∈ blanks) :
    trim (a ++ w.text ++ b) = w.text := by
  unfold trim
  have hb' : ∀ c ∈ b.reverse, c ∈ blanks := fun c hc => hb c (List.mem_reverse.mp hc)
  have hnil : b.dropWhile isBlank = [] := by
    have := dropWhile_blanks (b := []) hb
    simpa using this
  rw [List.append_assoc, dropWhile_blanks ha]
  cases w with
  | empty => simp only [Word.text, List.nil_append, hnil]; rfl
  | _ =>
    simp only [Word.text, List.cons_append, List.nil_append]
    rw [List.dropWhile_cons_of_neg (by decide)]
    simp only [List.reverse_cons, List.append_assoc, List.cons_append, List.nil_append]
    rw [dropWhile_blanks hb', List.dropWhile_cons_of_neg (by decide)]
    rfl

theorem blank_comma : ',' ∉ blanks := by decide

/-- C114: words joined with commas, with any white space around each, are recognised. -/
theorem C114_tagWords (ps : List (List Char × Word × List Char)) (h0 : ps ≠ [])
    (hb : ∀ p ∈ ps, (∀ c ∈ p.1, c ∈ blanks) ∧ ∀ c ∈ p.2.2, c ∈ blanks) :
    tagWords (joinComma (ps.map fun p => p.1 ++ p.2.1.text ++ p.2.2)) = ps.map fun p => some p.2.1 := by
  unfold tagWords
  rw [splitComma_join (by simpa using h0), List.map_map]
  · refine List.map_congr_left fun p hp => ?_
    obtain ⟨h1, h2⟩ := hb p hp
    show classify (trim (p.1 ++ p.2.1.text ++ p.2.2)) = _
    rw [trim_word _ h1 h2]
    exact (C114_words _ _).mpr rfl
  · intro t ht hc
    rw [List.mem_map] at ht
    obtain ⟨p, hp, rfl⟩ := ht
    obtain ⟨h1, h2⟩ := hb p hp
    simp only [List.mem_append] at hc
    rcases hc with (hc | hc) | hc
    · exact blank_comma (h1 _ hc)
    · revert hc
      cases p.2.1 <;> decide
    · exact blank_comma (h2 _ hc)

/-- The words for nil. -/
def nilWords : List (Option Word) := [some .nil, some .nilString, some .nilList]

/-- What a word for nil means: `nil` is what the type of the value would be. -/
def nilMeans (f : FieldIn) (w : Option Word) : NilKind :=
  if w = some .nil then f.ty.elem.defaultNil else if w = some .nilString then .string else .list

/-- C114: the word `nil` means the empty string if the pointer is to a string, number or byte sequence, else the empty list;
the other two words say it themselves. -/
theorem C114_nilMeans (f : FieldIn) : (nilMeans f (some .nil) = .string ↔ f.ty.elem.Text) ∧ nilMeans f (some .nilString) = .string ∧
    nilMeans f (some .nilList) = .list := by
  rw [← defaultNil_text]
  simp [nilMeans]

/-- The words of a tag are known, those for nil are on a pointer, `tail` is on the last field, of slice type and not optional. -/
structure TagOk (f : FieldIn) (last : Nat) (ws : List (Option Word)) : Prop where
  known : none ∉ ws
  pointer : ∀ w ∈ ws, w ∈ nilWords → f.ty.isPtr = true
  excl : some .tail ∈ ws → some .optional ∉ ws
  last : some .tail ∈ ws → f.index = last ∧ f.ty.isSliceKind = true

/-- The tags a list of words means; of words for nil, the last one counts. -/
structure TagMeans (f : FieldIn) (ws : List (Option Word)) (ts : Tags) (ignored : Bool) : Prop where
  ignored : ignored = true ↔ some .dash ∈ ws
  optional : ts.optional = true ↔ some .optional ∈ ws
  tail : ts.tail = true ↔ some .tail ∈ ws
  nilOK : ts.nilOK = true ↔ ∃ w ∈ ws, w ∈ nilWords
  nilKind : ∀ pre w post, ws = pre ++ w :: post → w ∈ nilWords → (∀ x ∈ post, x ∉ nilWords) → ts.nilKind = nilMeans f w

theorem parseWord_isSome {f : FieldIn} {last : Nat} {ts : Tags × Bool} {w : Option Word} :
    (parseWord f last ts w).isSome = true ↔ w ≠ none ∧ (w ∈ nilWords → f.ty.isPtr = true) ∧
      (w = some .optional → ts.1.tail = false) ∧
      (w = some .tail → ts.1.optional = false ∧ f.index = last ∧ f.ty.isSliceKind = true) := by
  cases w with
  | none => simp [parseWord]
  | some w =>
    cases w with
    | tail =>
      by_cases hi : f.index = last <;> cases ho : ts.1.optional <;> cases hs : f.ty.isSliceKind <;>
        simp [parseWord, nilWords, hi, ho, hs]
    | optional => cases ht : ts.1.tail <;> simp [parseWord, nilWords, ht]
    | _ => cases hp : f.ty.isPtr <;> simp [parseWord, nilWords, hp]

theorem parseWord_eff {f : FieldIn} {last : Nat} {ts r : Tags × Bool} {w : Option Word} (h : parseWord f last ts w = some r) :
    (r.2 = true ↔ ts.2 = true ∨ w = some .dash) ∧ (r.1.optional = true ↔ ts.1.optional = true ∨ w = some .optional) ∧
    (r.1.tail = true ↔ ts.1.tail = true ∨ w = some .tail) ∧ (r.1.nilOK = true ↔ ts.1.nilOK = true ∨ w ∈ nilWords) ∧
    (w ∈ nilWords → r.1.nilKind = nilMeans f w) ∧ (w ∉ nilWords → r.1.nilKind = ts.1.nilKind) := by
  obtain ⟨hs, h2, h3, h4⟩ := parseWord_isSome.mp (show (parseWord f last ts w).isSome = true by rw [h]; rfl)
  cases w with
  | none => simp at hs
  | some w =>
    cases w with
    | tail =>
      obtain ⟨a1, a2, a3⟩ := h4 rfl
      simp only [parseWord, a1, a2, a3, ne_eq, not_true_eq_false, if_false, Bool.false_eq_true, if_true, Option.some.injEq] at h
      subst h; simp [nilWords, a1]
    | optional =>
      simp only [parseWord, h3 rfl, Bool.false_eq_true, if_false, Option.some.injEq] at h
      subst h; simp [nilWords, h3 rfl]
    | empty =>
      simp only [parseWord, Option.some.injEq] at h
      subst h; simp [nilWords]
    | dash =>
      simp only [parseWord, Option.some.injEq] at h
      subst h; simp [nilWords]
    | _ =>
      have h2 := h2 (by simp [nilWords])
      simp only [parseWord, h2, if_true, Option.some.injEq] at h
      subst h; simp [nilWords, nilMeans]

theorem parseWords_some {f : FieldIn} {last : Nat} {ts r : Tags × Bool} {ws : List (Option Word)} (h : parseWords f last ts ws = some r) :
    TagOk f last ws ∧ (some .tail ∈ ws → ts.1.optional = false) ∧ (some .optional ∈ ws → ts.1.tail = false) ∧
    (r.2 = true ↔ ts.2 = true ∨ some .dash ∈ ws) ∧ (r.1.optional = true ↔ ts.1.optional = true ∨ some .optional ∈ ws) ∧
    (r.1.tail = true ↔ ts.1.tail = true ∨ some .tail ∈ ws) ∧ (r.1.nilOK = true ↔ ts.1.nilOK = true ∨ ∃ w ∈ ws, w ∈ nilWords) ∧
    (∀ pre w post, ws = pre ++ w :: post → w ∈ nilWords → (∀ x ∈ post, x ∉ nilWords) → r.1.nilKind = nilMeans f w) ∧
    ((∀ x ∈ ws, x ∉ nilWords) → r.1.nilKind = ts.1.nilKind) := by
  induction ws generalizing ts with
  | nil =>
    simp only [parseWords, Option.some.injEq] at h
    subst h
    exact ⟨⟨by simp, by simp, by simp, by simp⟩, by simp⟩
  | cons w ws ih =>
    rw [parseWords] at h
    cases hw : parseWord f last ts w with
    | none => rw [hw] at h; simp at h
    | some ts1 =>
      rw [hw] at h
      simp only at h
      obtain ⟨k1, k2, k3, k4⟩ := parseWord_isSome.mp (show (parseWord f last ts w).isSome = true by rw [hw]; rfl)
      obtain ⟨e1, e2, e3, e4, e5, e6⟩ := parseWord_eff hw
      obtain ⟨i1, i2, i3, i4, i5, i6, i7, i8, i9⟩ := ih h
      have hne : (some .tail : Option Word) ≠ some .optional := by simp
      refine ⟨⟨?_, ?_, ?_, ?_⟩, ?_, ?_, ?_, ?_, ?_, ?_, ?_, ?_⟩
      · intro hx
        rcases List.mem_cons.mp hx with hx | hx
        · exact k1 hx.symm
        · exact i1.known hx
      · intro x hx
        rcases List.mem_cons.mp hx with rfl | hx
        · exact k2
        · exact i1.pointer x hx
      · intro ht ho
        rcases List.mem_cons.mp ht with ht | ht <;> rcases List.mem_cons.mp ho with ho | ho
        · rw [← ht] at ho; exact hne ho.symm
        · have := i3 ho
          rw [e3.mpr (Or.inr ht.symm)] at this; simp at this
        · have := i2 ht
          rw [e2.mpr (Or.inr ho.symm)] at this; simp at this
        · exact i1.excl ht ho
      · intro ht
        rcases List.mem_cons.mp ht with ht | ht
        · exact (k4 ht.symm).2
        · exact i1.last ht
      · intro ht
        rcases List.mem_cons.mp ht with ht | ht
        · exact (k4 ht.symm).1
        · have := i2 ht
          cases ho : ts.1.optional with
          | false => rfl
          | true => rw [e2.mpr (Or.inl ho)] at this; simp at this
      · intro ht
        rcases List.mem_cons.mp ht with ht | ht
        · exact k3 ht.symm
        · have := i3 ht
          cases ho : ts.1.tail with
          | false => rfl
          | true => rw [e3.mpr (Or.inl ho)] at this; simp at this
      · rw [i4, e1, List.mem_cons, or_assoc, @eq_comm _ w]
      · rw [i5, e2, List.mem_cons, or_assoc, @eq_comm _ w]
      · rw [i6, e3, List.mem_cons, or_assoc, @eq_comm _ w]
      · rw [i7, e4]; simp only [List.mem_cons, exists_eq_or_imp, or_assoc]
      · intro pre x post hp hx hpost
        cases pre with
        | nil =>
          simp only [List.nil_append, List.cons.injEq] at hp
          obtain ⟨rfl, rfl⟩ := hp
          rw [i9 hpost, e5 hx]
        | cons y pre =>
          simp only [List.cons_append, List.cons.injEq] at hp
          exact i8 pre x post hp.2 hx hpost
      · intro hno
        rw [i9 (fun x hx => hno x (by simp [hx])), e6 (hno w (by simp))]

theorem parseWords_ok {f : FieldIn} {last : Nat} {ts : Tags × Bool} {ws : List (Option Word)} (h : TagOk f last ws)
    (h1 : some .tail ∈ ws → ts.1.optional = false) (h2 : some .optional ∈ ws → ts.1.tail = false) :
    ∃ r, parseWords f last ts ws = some r := by
  induction ws generalizing ts with
  | nil => exact ⟨ts, rfl⟩
  | cons w ws ih =>
    have hs : (parseWord f last ts w).isSome = true := by
      refine parseWord_isSome.mpr ⟨fun hw => h.known (by simp [hw]), h.pointer w (by simp), ?_, ?_⟩
      · rintro rfl; exact h2 (by simp)
      · rintro rfl; exact ⟨h1 (by simp), h.last (by simp)⟩
    obtain ⟨ts1, hw⟩ := Option.isSome_iff_exists.mp hs
    obtain ⟨e1, e2, e3, e4, e5, e6⟩ := parseWord_eff hw
    rw [parseWords, hw]
    refine ih ⟨fun hx => h.known (List.mem_cons_of_mem _ hx), fun x hx => h.pointer x (by simp [hx]),
      fun ht ho => h.excl (List.mem_cons_of_mem _ ht) (List.mem_cons_of_mem _ ho), fun ht => h.last (List.mem_cons_of_mem _ ht)⟩ ?_ ?_
    · intro ht
      cases ho : ts1.1.optional with
      | false => rfl
      | true =>
        rcases e2.mp ho with h' | rfl
        · rw [h1 (List.mem_cons_of_mem _ ht)] at h'; simp at h'
        · exact absurd (List.mem_cons_self ..) (h.excl (List.mem_cons_of_mem _ ht))
    · intro ht
      cases ho : ts1.1.tail with
      | false => rfl
      | true =>
        rcases e3.mp ho with h' | rfl
        · rw [h2 (List.mem_cons_of_mem _ ht)] at h'; simp at h'
        · exact absurd (List.mem_cons_of_mem _ ht) (h.excl (List.mem_cons_self ..))

/-- C114: a tag is admitted exactly when its words are. -/
theorem C114_parse (f : FieldIn) (last : Nat) : (∃ r, parseTag f last = some r) ↔ TagOk f last (tagWords f.tag) :=
  ⟨fun ⟨_, h⟩ => (parseWords_some h).1, fun h => parseWords_ok h (fun _ => rfl) (fun _ => rfl)⟩

/-- C114: and it means what its words say. -/
theorem C114_means {f : FieldIn} {last : Nat} {ts : Tags} {ign : Bool} (h : parseTag f last = some (ts, ign)) :
    TagMeans f (tagWords f.tag) ts ign := by
  obtain ⟨_, _, _, i4, i5, i6, i7, i8, _⟩ := parseWords_some h
  exact ⟨by simpa using i4, by simpa using i5, by simpa using i6, by simpa using i7, i8⟩

/-! ### All the fields -/

theorem foldl_last_le (l : List FieldIn) (z : Nat) (hz : ∀ g ∈ l, z ≤ g.index) (hs : l.Pairwise (fun a b => a.index < b.index)) :
    z ≤ l.foldl (fun last f => if f.exported then f.index else last) z := by
  induction l generalizing z with
  | nil => simp
  | cons a l ih =>
    rw [List.pairwise_cons] at hs
    rw [List.foldl_cons]
    split
    · exact Nat.le_trans (hz a (by simp)) (ih a.index (fun g hg => Nat.le_of_lt (hs.1 g hg)) hs.2)
    · exact ih z (fun g hg => hz g (by simp [hg])) hs.2

theorem lastPublic_le {fs : List FieldIn} (hs : fs.Pairwise (fun a b => a.index < b.index)) {f : FieldIn} (hf : f ∈ fs)
    (he : f.exported = true) : f.index ≤ lastPublic fs := by
  unfold lastPublic
  generalize 0 = z
  induction fs generalizing z with
  | nil => simp at hf
  | cons g fs ih =>
    rw [List.pairwise_cons] at hs
    rw [List.foldl_cons]
    rcases List.mem_cons.mp hf with rfl | hf
    · simp only [he, if_true]
      exact foldl_last_le fs _ (fun g hg => Nat.le_of_lt (hs.1 g hg)) hs.2
    · exact ih hs.2 hf _

/-- The fields that take part: exported, without `-`. -/
def takesPart (f : FieldIn) : Bool := f.exported && decide (some .dash ∉ tagWords f.tag)

theorem gather_some {last : Nat} {fs : List FieldIn} {l : List (FieldIn × Tags)} (h : gather last fs = some l) :
    l.map (·.1) = fs.filter takesPart ∧ (∀ f ∈ fs, f.exported = true → TagOk f last (tagWords f.tag)) ∧
    ∀ p ∈ l, TagMeans p.1 (tagWords p.1.tag) p.2 false := by
  induction fs generalizing l with
  | nil =>
    simp only [gather, Option.some.injEq] at h
    subst h; simp
  | cons f fs ih =>
    rw [gather] at h
    split at h
    · next he =>
      obtain ⟨h1, h2, h3⟩ := ih h
      refine ⟨by rw [h1, List.filter_cons_of_neg (by simp [takesPart, he])], ?_, h3⟩
      intro g hg hge
      rcases List.mem_cons.mp hg with rfl | hg
      · rw [he] at hge; simp at hge
      · exact h2 g hg hge
    · next he =>
      have he : f.exported = true := by simpa using he
      cases hp : parseTag f last with
      | none => rw [hp] at h; simp at h
      | some r =>
        obtain ⟨ts, ign⟩ := r
        rw [hp] at h
        have hok := (C114_parse f last).mp ⟨_, hp⟩
        have hm := C114_means hp
        simp only at h
        split at h
        · next hi =>
          obtain ⟨h1, h2, h3⟩ := ih h
          refine ⟨by rw [h1, List.filter_cons_of_neg (by simp [takesPart, hm.ignored.mp hi])], ?_, h3⟩
          intro g hg hge
          rcases List.mem_cons.mp hg with rfl | hg
          · exact hok
          · exact h2 g hg hge
        · next hi =>
          have hi : ign = false := by simpa using hi
          subst hi
          cases hr : gather last fs with
          | none => rw [hr] at h; simp at h
          | some l2 =>
            rw [hr] at h
            simp only [Option.some.injEq] at h
            subst h
            obtain ⟨h1, h2, h3⟩ := ih hr
            have hd : some .dash ∉ tagWords f.tag := fun hd => by have := hm.ignored.mpr hd; simp at this
            refine ⟨by rw [List.map_cons, h1, List.filter_cons_of_pos (by simp [takesPart, he, hd])], ?_, ?_⟩
            · intro g hg hge
              rcases List.mem_cons.mp hg with rfl | hg
              · exact hok
              · exact h2 g hg hge
            · intro p hp
              rcases List.mem_cons.mp hp with rfl | hp
              · exact hm
              · exact h3 p hp

theorem gather_ok {last : Nat} {fs : List FieldIn} (h : ∀ f ∈ fs, f.exported = true → TagOk f last (tagWords f.tag)) :
    ∃ l, gather last fs = some l := by
  induction fs with
  | nil => exact ⟨[], rfl⟩
  | cons f fs ih =>
    obtain ⟨l, hl⟩ := ih (fun g hg => h g (by simp [hg]))
    rw [gather]
    split
    · exact ⟨l, hl⟩
    · next he =>
      obtain ⟨⟨ts, ign⟩, hp⟩ := (C114_parse f last).mpr (h f (by simp) (by simpa using he))
      rw [hp]
      simp only
      split
      · exact ⟨l, hl⟩
      · rw [hl]; exact ⟨_, rfl⟩

/-- May be absent. -/
def mayMiss (p : FieldIn × Tags) : Prop := p.2.optional = true ∨ p.2.tail = true

theorem consistent_iff (any : Bool) (l : List (FieldIn × Tags)) :
    consistent any l = true ↔ l.Pairwise (fun a b => mayMiss a → mayMiss b) ∧ (any = true → ∀ p ∈ l, mayMiss p) := by
  induction l generalizing any with
  | nil => simp [consistent]
  | cons p l ih =>
    obtain ⟨f, ts⟩ := p
    rw [consistent, List.pairwise_cons]
    by_cases hm : (ts.optional || ts.tail) = true
    · have hm' : mayMiss (f, ts) := by simpa [mayMiss] using hm
      rw [if_pos hm, ih]
      constructor
      · rintro ⟨h1, h2⟩
        refine ⟨⟨fun b hb _ => h2 rfl b hb, h1⟩, fun _ p hp => ?_⟩
        rcases List.mem_cons.mp hp with rfl | hp
        · exact hm'
        · exact h2 rfl p hp
      · rintro ⟨⟨h1, h2⟩, _⟩
        exact ⟨h2, fun _ p hp => h1 p hp hm'⟩
    · have hm' : ¬ mayMiss (f, ts) := by simpa [mayMiss] using hm
      rw [if_neg hm]
      cases any with
      | true =>
        rw [if_pos rfl]
        refine ⟨fun h => by simp at h, fun ⟨_, h⟩ => absurd (h rfl _ (List.mem_cons_self ..)) hm'⟩
      | false =>
        simp only [Bool.false_eq_true, if_false, ih]
        constructor
        · rintro ⟨h1, _⟩
          exact ⟨⟨fun b _ h => absurd h hm', h1⟩, by simp⟩
        · rintro ⟨⟨_, h1⟩, _⟩
          exact ⟨h1, by simp⟩

/-- C114: the fields that take part, in order, with the tags that their words mean, if every exported field has an admitted tag and
after a field that may be absent every field may. -/
theorem C114_fields {fs : List FieldIn} {l : List (FieldIn × Tags)} (h : processFields fs = some l) :
    l.map (·.1) = fs.filter takesPart ∧ (∀ f ∈ fs, f.exported = true → TagOk f (lastPublic fs) (tagWords f.tag)) ∧
    (∀ p ∈ l, TagMeans p.1 (tagWords p.1.tag) p.2 false) ∧ l.Pairwise (fun a b => mayMiss a → mayMiss b) := by
  unfold processFields at h
  cases hg : gather (lastPublic fs) fs with
  | none => rw [hg] at h; simp at h
  | some l2 =>
    rw [hg] at h
    simp only at h
    split at h
    · next hc =>
      simp only [Option.some.injEq] at h
      subst h
      obtain ⟨h1, h2, h3⟩ := gather_some hg
      exact ⟨h1, h2, h3, ((consistent_iff _ _).mp hc).1⟩
    · simp at h

/-- C114: and only then are the fields refused. -/
theorem C114_refused (fs : List FieldIn) : processFields fs = none ↔
    (∃ f ∈ fs, f.exported = true ∧ ¬ TagOk f (lastPublic fs) (tagWords f.tag)) ∨
    ∃ l, gather (lastPublic fs) fs = some l ∧ ¬ l.Pairwise (fun a b => mayMiss a → mayMiss b) := by
  unfold processFields
  constructor
  · intro h
    by_cases hall : ∀ f ∈ fs, f.exported = true → TagOk f (lastPublic fs) (tagWords f.tag)
    · obtain ⟨l, hl⟩ := gather_ok hall
      right
      rw [hl] at h
      simp only at h
      refine ⟨l, hl, fun hp => ?_⟩
      rw [if_pos ((consistent_iff false l).mpr ⟨hp, by simp⟩)] at h
      simp at h
    · left
      simp only [Classical.not_forall] at hall
      obtain ⟨f, hf, he, hn⟩ := hall
      exact ⟨f, hf, he, hn⟩
  · rintro (⟨f, hf, he, hn⟩ | ⟨l, hl, hp⟩)
    · cases hg : gather (lastPublic fs) fs with
      | none => rfl
      | some l => exact absurd ((gather_some hg).2.1 f hf he) hn
    · rw [hl]
      simp only
      rw [if_neg]
      intro hc
      exact hp ((consistent_iff _ _).mp hc).1

theorem optionals_of {l : List (FieldIn × Tags)} (h : ∀ p ∈ l, mayMiss p) : (toFlds l).optionals = true := by
  induction l with
  | nil => rfl
  | cons p l ih =>
    obtain ⟨f, ts⟩ := p
    have := h (f, ts) (by simp)
    rw [toFlds, Flds.optionals, Bool.and_eq_true, Bool.or_eq_true]
    exact ⟨this, ih (fun p hp => h p (by simp [hp]))⟩

/-- C114: so the fields are what the writer and the decoder presuppose, unless `tail` is on a slice of bytes. -/
theorem C114_wellformed_partial {fs : List FieldIn} {l : List (FieldIn × Tags)} (h : processFields fs = some l)
    (hs : fs.Pairwise (fun a b => a.index < b.index)) (hty : ∀ f ∈ fs, f.ty.ok false = true)
    (hb : ∀ p ∈ l, p.2.tail = true → p.1.ty.isSlice = true) : (toFlds l).ok = true := by
  obtain ⟨h1, h2, h3, h4⟩ := C114_fields h
  have hmem : ∀ p ∈ l, p.1 ∈ fs ∧ p.1.exported = true := by
    intro p hp
    have : p.1 ∈ fs.filter takesPart := by rw [← h1]; exact List.mem_map_of_mem hp
    rw [List.mem_filter] at this
    simp only [takesPart, Bool.and_eq_true] at this
    exact ⟨this.1, this.2.1⟩
  have hsl : l.Pairwise (fun a b => a.1.index < b.1.index) := by
    have := hs.filter takesPart
    rw [← h1, List.pairwise_map] at this
    exact this
  have hlast : ∀ p ∈ l, p.1.index ≤ lastPublic fs := fun p hp => lastPublic_le hs (hmem p hp).1 (hmem p hp).2
  have htail : ∀ p ∈ l, p.2.tail = true → p.1.index = lastPublic fs ∧ p.2.optional = false := by
    intro p hp ht
    have ho := h2 p.1 (hmem p hp).1 (hmem p hp).2
    have hm := h3 p hp
    have htw := hm.tail.mp ht
    refine ⟨(ho.last htw).1, ?_⟩
    cases hopt : p.2.optional with
    | false => rfl
    | true => exact absurd (hm.optional.mp hopt) (ho.excl htw)
  have hnil : ∀ p ∈ l, p.2.nilOK = true → p.1.ty.isPtr = true := by
    intro p hp hn
    obtain ⟨w, hw1, hw2⟩ := (h3 p hp).nilOK.mp hn
    exact (h2 p.1 (hmem p hp).1 (hmem p hp).2).pointer w hw1 hw2
  have hty' : ∀ p ∈ l, p.1.ty.ok false = true := fun p hp => hty _ (hmem p hp).1
  clear h h1 h2 h3 hmem
  generalize lastPublic fs = last at hlast htail
  induction l with
  | nil => rfl
  | cons p l ih =>
    rw [List.pairwise_cons] at h4 hsl
    have i := ih (fun p hp => hb p (by simp [hp])) h4.2 hsl.2 (fun p hp => hnil p (by simp [hp])) (fun p hp => hty' p (by simp [hp]))
      (fun p hp => hlast p (by simp [hp])) (fun p hp => htail p (by simp [hp]))
    obtain ⟨f, ts⟩ := p
    have a1 := hb _ (List.mem_cons_self ..)
    have a2 := htail _ (List.mem_cons_self ..)
    have a3 := hnil _ (List.mem_cons_self ..)
    have a4 := hty' _ (List.mem_cons_self ..)
    simp only at a1 a2 a3 a4
    rw [toFlds, Flds.ok]
    simp only [Bool.and_eq_true]
    refine ⟨⟨⟨⟨a4, ?_⟩, ?_⟩, ?_⟩, i⟩
    · cases hn : ts.nilOK with
      | false => rfl
      | true => rw [a3 hn]; rfl
    · cases ht : ts.tail with
      | false => rfl
      | true =>
        rw [a1 ht, (a2 ht).2]
        have : l = [] := by
          cases l with
          | nil => rfl
          | cons q l =>
            have b1 := hsl.1 q (by simp)
            have b2 := hlast q (by simp)
            have b3 := (a2 ht).1
            simp only at b1
            omega
        subst this
        rfl
    · cases ho : ts.optional with
      | false => rfl
      | true =>
        rw [optionals_of (fun q hq => h4.1 q hq (Or.inl ho))]
        rfl

/-! ### Cases -/

/-- `struct { A []byte \`rlp:"-"\`; b uint8; C *uint8 \`rlp:"nilString, optional"\`; D []uint16 \`rlp:" tail"\` }`. -/
def sampleFields : List FieldIn :=
  [⟨0, true, .bytes, "-".toList⟩, ⟨1, false, .uint 8, "foo".toList⟩, ⟨2, true, .ptr (.uint 8), "nilString, optional".toList⟩,
    ⟨3, true, .slice (.uint 16), " tail".toList⟩]

example : (processFields sampleFields).map (fun l => l.map (fun p => (p.1.index, p.2))) =
    some [(2, { nilOK := true, nilKind := .string, optional := true }), (3, { tail := true })] := by decide +kernel

example : processFields [⟨0, true, .uint 8, "optional".toList⟩, ⟨1, true, .uint 8, []⟩] |>.isNone := by decide +kernel
example : processFields [⟨0, true, .slice .str, "tail".toList⟩, ⟨1, true, .uint 8, "-".toList⟩] |>.isNone := by decide +kernel
example : processFields [⟨0, true, .slice .str, "tail,optional".toList⟩] |>.isNone := by decide +kernel
example : processFields [⟨0, true, .uint 8, "nil".toList⟩] |>.isNone := by decide +kernel
example : processFields [⟨0, true, .uint 8, "omitempty".toList⟩] |>.isNone := by decide +kernel

/-- `struct { A uint8 \`rlp:"optional"\`; B []byte \`rlp:"tail"\` }`. -/
def tailBytes : List FieldIn := [⟨0, true, .uint 8, "optional".toList⟩, ⟨1, true, .bytes, "tail".toList⟩]

/-- C114: `tail` on a slice of bytes is admitted: a nil one after an optional field is left out by the writer, and then missed by the
decoder. -/
theorem C114_tail_refuted : ∃ l, processFields tailBytes = some l ∧ HasTy noTypes (.struct (toFlds l)) (.list [.num 1, .nil]) ∧
    encodeTy noTypes (.struct (toFlds l)) (.list [.num 1, .nil]) = .ok [0xC1, 0x01] ∧
    decodeBytesTy noTypes (.struct (toFlds l)) [0xC1, 0x01] = .error .tooFew :=
  ⟨[(⟨0, true, .uint 8, "optional".toList⟩, { optional := true }), (⟨1, true, .bytes, "tail".toList⟩, { tail := true })], by rfl,
    .struct (.cons (.uint 8 1 (by decide)) (.cons .bytesNil .nil)), by decide +kernel, of_isErr (by decide +kernel)⟩

end Verif.Rlp
