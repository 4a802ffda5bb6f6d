import Verif.Rlp.TypedDec

/-!
# Typed values: round trips, acceptance, stability
-/

namespace Verif.Rlp
open Verif
variable {Γ : Nat → Flds}

/-! ### Decoded values are values of the type -/

theorem hasTyL_replicate {t : Ty} {v : Val} (h : HasTy Γ t v) (n : Nat) : HasTyL Γ t (List.replicate n v) := by
  induction n with
  | zero => exact .nil
  | succ n ih => rw [List.replicate_succ]; exact .cons h ih

mutual
theorem zero_hasTy : ∀ (t : Ty), t.ok false = true → HasTy Γ t t.zero
  | .bool, _ => .bool _
  | .uint bits, _ => .uint bits 0 (Nat.two_pow_pos bits)
  | .big, _ => .big 0
  | .u256, _ => .u256 0 (by decide)
  | .str, _ => .str _
  | .bytes, _ => .bytesNil
  | .byteArr n, _ => by
    have := HasTy.byteArr (Γ := Γ) (List.replicate n 0)
    rw [List.length_replicate] at this
    exact this
  | .raw, _ => .rawNil
  | .any, _ => .anyNil
  | .ptr t, _ => .ptrNil
  | .slice t, _ => .sliceNil
  | .array n t, h => by
    simp only [Ty.ok, Bool.and_eq_true] at h
    have := HasTy.array (hasTyL_replicate (zero_hasTy t h.2) n)
    rw [List.length_replicate] at this
    exact this
  | .struct fs, h => .struct (zeros_hasTy fs h)
  | .ref i, h => by simp [Ty.ok] at h
theorem zeros_hasTy : ∀ (fs : Flds), fs.ok = true → HasTyF Γ fs fs.zeros
  | .nil, _ => .nil
  | .cons g t fs, h => by
    simp only [Flds.ok, Bool.and_eq_true] at h
    exact .cons (zero_hasTy t h.1.1.1.1) (zeros_hasTy fs h.2)
end

mutual
theorem enc_hasTy (hΓ : ∀ i, (Γ i).ok = true) {d : Bool} {g : Tags} {t : Ty} {v : Val} {x : Bytes} (h : Enc Γ g t v x)
    (ho : t.ok d = true) : HasTy Γ t v ∧ v.neg = false := by
  cases h with
  | bool _ b => exact ⟨.bool _, rfl⟩
  | uint _ _ n h => exact ⟨.uint _ n h, by simp [Val.neg]⟩
  | big _ n => exact ⟨.big _, by simp [Val.neg]⟩
  | u256 _ n h => exact ⟨.u256 n h, by simp [Val.neg]⟩
  | str _ b => exact ⟨.str _, rfl⟩
  | bytes _ b => exact ⟨.bytes _, rfl⟩
  | byteArr _ _ b h => subst h; exact ⟨.byteArr _, rfl⟩
  | raw _ h => exact ⟨.raw _, rfl⟩
  | any _ i => exact ⟨.any _, rfl⟩
  | ptr hg h =>
    obtain ⟨h1, h2⟩ := enc_hasTy hΓ h ho
    exact ⟨.ptr h1, h2⟩
  | ptrNil _ _ => exact ⟨.ptrNil, rfl⟩
  | ptrSome _ _ _ _ h =>
    obtain ⟨h1, h2⟩ := enc_hasTy hΓ h ho
    exact ⟨.ptr h1, h2⟩
  | slice _ h =>
    simp only [Ty.ok, Bool.and_eq_true] at ho
    obtain ⟨h1, h2⟩ := encL_hasTy hΓ h ho.2
    exact ⟨.slice h1, h2⟩
  | tail _ h =>
    simp only [Ty.ok, Bool.and_eq_true] at ho
    obtain ⟨h1, h2⟩ := encL_hasTy hΓ h ho.2
    exact ⟨.slice h1, h2⟩
  | array _ hn h =>
    subst hn
    simp only [Ty.ok, Bool.and_eq_true] at ho
    obtain ⟨h1, h2⟩ := encL_hasTy hΓ h ho.2
    exact ⟨.array h1, h2⟩
  | struct h =>
    simp only [Ty.ok] at ho
    obtain ⟨h1, h2⟩ := encF_hasTy hΓ h ho
    exact ⟨.struct h1, h2⟩
  | ref h =>
    obtain ⟨h1, h2⟩ := encF_hasTy hΓ h (hΓ _)
    exact ⟨.ref h1, h2⟩
theorem encL_hasTy (hΓ : ∀ i, (Γ i).ok = true) {d : Bool} {t : Ty} {l : List Val} {x : Bytes} (h : EncL Γ t l x)
    (ho : t.ok d = true) : HasTyL Γ t l ∧ negs l = false := by
  cases h with
  | nil => exact ⟨.nil, rfl⟩
  | cons h hl =>
    obtain ⟨h1, h2⟩ := enc_hasTy hΓ h ho
    obtain ⟨h3, h4⟩ := encL_hasTy hΓ hl ho
    exact ⟨.cons h1 h3, by rw [negs, h2, h4]; rfl⟩
theorem encF_hasTy (hΓ : ∀ i, (Γ i).ok = true) {fs : Flds} {l : List Val} {x : Bytes} (h : EncF Γ fs l x)
    (ho : fs.ok = true) : HasTyF Γ fs l ∧ negs l = false := by
  cases h with
  | nil => exact ⟨.nil, rfl⟩
  | cons h hl =>
    simp only [Flds.ok, Bool.and_eq_true] at ho
    obtain ⟨h1, h2⟩ := enc_hasTy hΓ h ho.1.1.1.1
    obtain ⟨h3, h4⟩ := encF_hasTy hΓ hl ho.2
    exact ⟨.cons h1 h3, by rw [negs, h2, h4]; rfl⟩
  | @missing g t fs hg => exact ⟨zeros_hasTy _ ho, zeros_neg (.cons g t fs)⟩
end

/-! ### What an encoding stands for -/

theorem readsL_length {t : Ty} {l m : List Val} (h : ReadsL Γ t l m) : m.length = l.length := by
  induction l generalizing m with
  | nil => cases h; rfl
  | cons v l ih =>
    cases h with
    | cons h hl => rw [List.length_cons, List.length_cons, ih hl]

mutual
theorem reads_enc (hΓ : ∀ i, (Γ i).ok = true) {d : Bool} {g : Tags} {t : Ty} {v w : Val} (h : Reads Γ g t v w)
    (hv : HasTy Γ t v) (ho : t.ok d = true) : Enc Γ g t w (bytesOf Γ g t v) := by
  cases h with
  | bool _ b => simp only [bytesOf]; exact .bool g b
  | uint _ _ n h => simp only [bytesOf, Int.toNat_natCast]; exact .uint g _ n h
  | big _ n => simp only [bytesOf, Int.toNat_natCast]; exact .big g n
  | u256 _ n h => simp only [bytesOf, Int.toNat_natCast]; exact .u256 g n h
  | str _ b => simp only [bytesOf]; exact .str g b
  | bytes _ b => simp only [bytesOf]; exact .bytes g b
  | bytesNil => simp only [bytesOf]; exact .bytes g []
  | byteArr _ _ b h => simp only [bytesOf]; exact .byteArr g _ b h
  | raw _ h => simp only [bytesOf]; exact .raw g h
  | any _ i => simp only [bytesOf]; exact .any g i
  | anyNil => simp only [bytesOf]; exact .any g (.list [])
  | ptr hg h =>
    cases hv with
    | ptr hv =>
      simp only [bytesOf]
      exact .ptr hg (reads_enc hΓ h hv ho)
  | ptrNil hg h => simp only [bytesOf]; exact .ptr hg h
  | tagNil hn hg => simp only [bytesOf]; exact .ptrNil hn hg
  | tagSome hn hg h1 h2 h =>
    cases hv with
    | ptr hv =>
      simp only [bytesOf]
      exact .ptrSome hn hg h1 h2 (reads_enc hΓ h hv ho)
  | tagEmpty hn hg h => simp only [bytesOf]; rw [h]; exact .ptrNil hn hg
  | slice h =>
    cases hv with
    | slice hv =>
      simp only [Ty.ok, Bool.and_eq_true] at ho
      have := readsL_enc hΓ h hv ho.2
      simp only [bytesOf]
      split
      · next hg => exact .tail hg this
      · next hg => exact .slice (by simpa using hg) this
  | sliceNil _ =>
    simp only [bytesOf]
    split
    · next hg => exact .tail hg .nil
    · next hg => exact .slice (by simpa using hg) .nil
  | array _ hn h =>
    cases hv with
    | array hv =>
      simp only [Ty.ok, Bool.and_eq_true] at ho
      have := readsL_enc hΓ h hv ho.2
      simp only [bytesOf]
      exact .array _ (readsL_length h) this
  | struct h =>
    cases hv with
    | struct hv =>
      simp only [bytesOf]
      exact .struct (readsF_enc hΓ h hv ho)
  | ref h =>
    cases hv with
    | ref hv =>
      simp only [bytesOf]
      exact .ref (readsF_enc hΓ h hv (hΓ _))
theorem readsL_enc (hΓ : ∀ i, (Γ i).ok = true) {d : Bool} {t : Ty} {l m : List Val} (h : ReadsL Γ t l m)
    (hv : HasTyL Γ t l) (ho : t.ok d = true) : EncL Γ t m (bytesL Γ t l) := by
  cases h with
  | nil => exact .nil
  | cons h hl =>
    cases hv with
    | cons hv hvl =>
      rw [bytesL]
      exact .cons (reads_enc hΓ h hv ho) (readsL_enc hΓ hl hvl ho)
theorem readsF_enc (hΓ : ∀ i, (Γ i).ok = true) {fs : Flds} {l m : List Val} (h : ReadsF Γ fs l m)
    (hv : HasTyF Γ fs l) (ho : fs.ok = true) : EncF Γ fs m (bytesF Γ fs l) := by
  cases h with
  | nil => exact .nil
  | cons hz h hl =>
    cases hv with
    | cons hv hvl =>
      simp only [Flds.ok, Bool.and_eq_true] at ho
      rw [bytesF, if_neg]
      · exact .cons (reads_enc hΓ h hv ho.1.1.1.1) (readsF_enc hΓ hl hvl ho.2)
      · rintro ⟨h1, h2, h3⟩
        rw [isZero_iff hv ho.1.1.1.1] at h2
        rw [fldsZero_iff hvl ho.2] at h3
        rcases hz with hz | hz
        · rw [hz] at h1; simp at h1
        · exact hz (by rw [h2, h3])
  | dropped hg =>
    cases hv with
    | cons hv hvl =>
      simp only [Flds.ok, Bool.and_eq_true] at ho
      rw [bytesF, if_pos ⟨hg, (isZero_iff hv ho.1.1.1.1).mpr rfl, (fldsZero_iff hvl ho.2).mpr rfl⟩]
      exact .missing hg
end

/-! ### Plain values -/

mutual
theorem plain_reads {g : Tags} {t : Ty} {v : Val} (h : Plain Γ t v) (hg : g.nilOK = false) : Reads Γ g t v v := by
  cases h with
  | bool b => exact .bool g b
  | uint _ n h => exact .uint g _ n h
  | big n => exact .big g n
  | u256 n h => exact .u256 g n h
  | str b => exact .str g b
  | bytes b => exact .bytes g b
  | byteArr _ b h => exact .byteArr g _ b h
  | raw h => exact .raw g h
  | any i => exact .any g i
  | ptr h => exact .ptr (Or.inr hg) (plain_reads h rfl)
  | slice h => exact .slice (plainL_reads h)
  | array _ hn h => exact .array _ hn (plainL_reads h)
  | struct h => exact .struct (plainF_reads h)
  | ref h => exact .ref (plainF_reads h)
theorem plainL_reads {t : Ty} {l : List Val} (h : PlainL Γ t l) : ReadsL Γ t l l := by
  cases h with
  | nil => exact .nil
  | cons h hl => exact .cons (plain_reads h rfl) (plainL_reads hl)
theorem plainF_reads {fs : Flds} {l : List Val} (h : PlainF Γ fs l) : ReadsF Γ fs l l := by
  cases h with
  | nil => exact .nil
  | @cons g t fs v l hg h hl =>
    by_cases hz : g.optional = true ∧ v :: l = t.zero :: fs.zeros
    · rw [hz.2]; exact .dropped hz.1
    · refine .cons ?_ (plain_reads h hg) (plainF_reads hl)
      cases ho : g.optional with
      | false => exact Or.inl rfl
      | true => exact Or.inr (fun h => hz ⟨ho, h⟩)
  | zero hg => exact .dropped hg
end

mutual
theorem plain_hasTy (hΓ : ∀ i, (Γ i).ok = true) {d : Bool} {t : Ty} {v : Val} (h : Plain Γ t v) (ho : t.ok d = true) :
    HasTy Γ t v ∧ v.neg = false := by
  cases h with
  | bool b => exact ⟨.bool _, rfl⟩
  | uint _ n h => exact ⟨.uint _ n h, by simp [Val.neg]⟩
  | big n => exact ⟨.big _, by simp [Val.neg]⟩
  | u256 n h => exact ⟨.u256 n h, by simp [Val.neg]⟩
  | str b => exact ⟨.str _, rfl⟩
  | bytes b => exact ⟨.bytes _, rfl⟩
  | byteArr _ b h => subst h; exact ⟨.byteArr _, rfl⟩
  | raw h => exact ⟨.raw _, rfl⟩
  | any i => exact ⟨.any _, rfl⟩
  | ptr h =>
    obtain ⟨h1, h2⟩ := plain_hasTy hΓ h ho
    exact ⟨.ptr h1, h2⟩
  | slice h =>
    simp only [Ty.ok, Bool.and_eq_true] at ho
    obtain ⟨h1, h2⟩ := plainL_hasTy hΓ h ho.2
    exact ⟨.slice h1, h2⟩
  | array _ hn h =>
    subst hn
    simp only [Ty.ok, Bool.and_eq_true] at ho
    obtain ⟨h1, h2⟩ := plainL_hasTy hΓ h ho.2
    exact ⟨.array h1, h2⟩
  | struct h =>
    simp only [Ty.ok] at ho
    obtain ⟨h1, h2⟩ := plainF_hasTy hΓ h ho
    exact ⟨.struct h1, h2⟩
  | ref h =>
    obtain ⟨h1, h2⟩ := plainF_hasTy hΓ h (hΓ _)
    exact ⟨.ref h1, h2⟩
theorem plainL_hasTy (hΓ : ∀ i, (Γ i).ok = true) {d : Bool} {t : Ty} {l : List Val} (h : PlainL Γ t l)
    (ho : t.ok d = true) : HasTyL Γ t l ∧ negs l = false := by
  cases h with
  | nil => exact ⟨.nil, rfl⟩
  | cons h hl =>
    obtain ⟨h1, h2⟩ := plain_hasTy hΓ h ho
    obtain ⟨h3, h4⟩ := plainL_hasTy hΓ hl ho
    exact ⟨.cons h1 h3, by rw [negs, h2, h4]; rfl⟩
theorem plainF_hasTy (hΓ : ∀ i, (Γ i).ok = true) {fs : Flds} {l : List Val} (h : PlainF Γ fs l)
    (ho : fs.ok = true) : HasTyF Γ fs l ∧ negs l = false := by
  cases h with
  | nil => exact ⟨.nil, rfl⟩
  | cons hg h hl =>
    simp only [Flds.ok, Bool.and_eq_true] at ho
    obtain ⟨h1, h2⟩ := plain_hasTy hΓ h ho.1.1.1.1
    obtain ⟨h3, h4⟩ := plainF_hasTy hΓ hl ho.2
    exact ⟨.cons h1 h3, by rw [negs, h2, h4]; rfl⟩
  | @zero g t fs hg => exact ⟨zeros_hasTy _ ho, zeros_neg (.cons g t fs)⟩
end

/-! ### Types with restricted tags -/

mutual
/-- All tags in a type satisfy the condition. -/
def Ty.tags (p : Tags → Bool) : Ty → Bool
  | .ptr t => t.tags p
  | .slice t => t.tags p
  | .array _ t => t.tags p
  | .struct fs => fs.tags p
  | _ => true
def Flds.tags (p : Tags → Bool) : Flds → Bool
  | .nil => true
  | .cons g t fs => p g && t.tags p && fs.tags p
end

/-- No field is optional. -/
abbrev Ty.noOptional (t : Ty) : Bool := t.tags (fun g => !g.optional)
abbrev Flds.noOptional (fs : Flds) : Bool := fs.tags (fun g => !g.optional)
/-- No field has a `nil` tag. -/
abbrev Ty.noNil (t : Ty) : Bool := t.tags (fun g => !g.nilOK)
abbrev Flds.noNil (fs : Flds) : Bool := fs.tags (fun g => !g.nilOK)

mutual
theorem enc_bytesOf (hΓ : ∀ i, (Γ i).noOptional = true) {g : Tags} {t : Ty} {v : Val} {x : Bytes} (h : Enc Γ g t v x)
    (ho : t.noOptional = true) : bytesOf Γ g t v = x := by
  cases h with
  | bool _ b => simp only [bytesOf]
  | uint _ _ n h => simp only [bytesOf, Int.toNat_natCast]
  | big _ n => simp only [bytesOf, Int.toNat_natCast]
  | u256 _ n h => simp only [bytesOf, Int.toNat_natCast]
  | str _ b => simp only [bytesOf]
  | bytes _ b => simp only [bytesOf]
  | byteArr _ _ b h => simp only [bytesOf]
  | raw _ h => simp only [bytesOf]
  | any _ i => simp only [bytesOf]
  | ptr hg h => simp only [bytesOf]; exact enc_bytesOf hΓ h ho
  | ptrNil _ _ => simp only [bytesOf]
  | ptrSome _ _ _ _ h => simp only [bytesOf]; exact enc_bytesOf hΓ h ho
  | slice hg h => simp only [bytesOf]; rw [if_neg (by simp [hg]), encL_bytesL hΓ h ho]
  | tail hg h => simp only [bytesOf]; rw [if_pos hg, encL_bytesL hΓ h ho]
  | array _ hn h => simp only [bytesOf]; rw [encL_bytesL hΓ h ho]
  | struct h => simp only [bytesOf]; rw [encF_bytesF hΓ h ho]
  | ref h => simp only [bytesOf]; rw [encF_bytesF hΓ h (hΓ _)]
theorem encL_bytesL (hΓ : ∀ i, (Γ i).noOptional = true) {t : Ty} {l : List Val} {x : Bytes} (h : EncL Γ t l x)
    (ho : t.noOptional = true) : bytesL Γ t l = x := by
  cases h with
  | nil => rfl
  | cons h hl => rw [bytesL, enc_bytesOf hΓ h ho, encL_bytesL hΓ hl ho]
theorem encF_bytesF (hΓ : ∀ i, (Γ i).noOptional = true) {fs : Flds} {l : List Val} {x : Bytes} (h : EncF Γ fs l x)
    (ho : fs.noOptional = true) : bytesF Γ fs l = x := by
  cases h with
  | nil => rfl
  | cons h hl =>
    simp only [Flds.tags, Bool.and_eq_true, Bool.not_eq_true'] at ho
    rw [bytesF, if_neg (by simp [ho.1.1]), enc_bytesOf hΓ h ho.1.2, encF_bytesF hΓ hl ho.2]
  | missing hg =>
    simp only [Flds.tags, Bool.and_eq_true, Bool.not_eq_true'] at ho
    rw [hg] at ho; simp at ho
end

theorem encList_mono {x y : Bytes} (h : y.length ≤ x.length) : (encList y).length ≤ (encList x).length := by
  have : (natBytes y.length).length ≤ (natBytes x.length).length := by
    apply BigMath.natBytes_len_le
    have := beNat_lt (natBytes x.length)
    rw [beNat_natBytes] at this
    omega
  unfold encList head
  simp only [List.length_append]
  split <;> split <;> simp <;> omega

mutual
/-- Re-encoding drops explicit zeros only. -/
theorem enc_stable (hΓ : ∀ i, (Γ i).ok = true) (hN : ∀ i, (Γ i).noNil = true) {d : Bool} {g : Tags} {t : Ty} {v : Val} {x : Bytes}
    (h : Enc Γ g t v x) (ho : t.ok d = true) (hn : t.noNil = true) (hg : g.nilOK = false) :
    Enc Γ g t v (bytesOf Γ g t v) ∧ (bytesOf Γ g t v).length ≤ x.length := by
  cases h with
  | bool _ b => simp only [bytesOf]; exact ⟨.bool g b, Nat.le_refl _⟩
  | uint _ _ n h => simp only [bytesOf, Int.toNat_natCast]; exact ⟨.uint g _ n h, Nat.le_refl _⟩
  | big _ n => simp only [bytesOf, Int.toNat_natCast]; exact ⟨.big g n, Nat.le_refl _⟩
  | u256 _ n h => simp only [bytesOf, Int.toNat_natCast]; exact ⟨.u256 g n h, Nat.le_refl _⟩
  | str _ b => simp only [bytesOf]; exact ⟨.str g b, Nat.le_refl _⟩
  | bytes _ b => simp only [bytesOf]; exact ⟨.bytes g b, Nat.le_refl _⟩
  | byteArr _ _ b h => simp only [bytesOf]; exact ⟨.byteArr g _ b h, Nat.le_refl _⟩
  | raw _ h => simp only [bytesOf]; exact ⟨.raw g h, Nat.le_refl _⟩
  | any _ i => simp only [bytesOf]; exact ⟨.any g i, Nat.le_refl _⟩
  | ptr hg' h =>
    simp only [bytesOf]
    obtain ⟨h1, h2⟩ := enc_stable hΓ hN h ho hn rfl
    exact ⟨.ptr hg' h1, h2⟩
  | ptrNil _ hg' => rw [hg] at hg'; simp at hg'
  | ptrSome _ hg' _ _ h => rw [hg] at hg'; simp at hg'
  | slice hg' h =>
    simp only [Ty.ok, Bool.and_eq_true] at ho
    obtain ⟨h1, h2⟩ := encL_stable hΓ hN h ho.2 hn
    simp only [bytesOf]; rw [if_neg (by simp [hg'])]
    exact ⟨.slice hg' h1, encList_mono h2⟩
  | tail hg' h =>
    simp only [Ty.ok, Bool.and_eq_true] at ho
    obtain ⟨h1, h2⟩ := encL_stable hΓ hN h ho.2 hn
    simp only [bytesOf]; rw [if_pos hg']
    exact ⟨.tail hg' h1, h2⟩
  | array _ hl h =>
    simp only [Ty.ok, Bool.and_eq_true] at ho
    obtain ⟨h1, h2⟩ := encL_stable hΓ hN h ho.2 hn
    simp only [bytesOf]
    exact ⟨.array _ hl h1, encList_mono h2⟩
  | struct h =>
    simp only [Ty.ok] at ho
    obtain ⟨h1, h2⟩ := encF_stable hΓ hN h ho hn
    simp only [bytesOf]
    exact ⟨.struct h1, encList_mono h2⟩
  | ref h =>
    obtain ⟨h1, h2⟩ := encF_stable hΓ hN h (hΓ _) (hN _)
    simp only [bytesOf]
    exact ⟨.ref h1, encList_mono h2⟩
theorem encL_stable (hΓ : ∀ i, (Γ i).ok = true) (hN : ∀ i, (Γ i).noNil = true) {d : Bool} {t : Ty} {l : List Val} {x : Bytes}
    (h : EncL Γ t l x) (ho : t.ok d = true) (hn : t.noNil = true) :
    EncL Γ t l (bytesL Γ t l) ∧ (bytesL Γ t l).length ≤ x.length := by
  cases h with
  | nil => exact ⟨.nil, Nat.le_refl _⟩
  | cons h hl =>
    obtain ⟨h1, h2⟩ := enc_stable hΓ hN h ho hn rfl
    obtain ⟨h3, h4⟩ := encL_stable hΓ hN hl ho hn
    rw [bytesL]
    exact ⟨.cons h1 h3, by rw [List.length_append, List.length_append]; omega⟩
theorem encF_stable (hΓ : ∀ i, (Γ i).ok = true) (hN : ∀ i, (Γ i).noNil = true) {fs : Flds} {l : List Val} {x : Bytes}
    (h : EncF Γ fs l x) (ho : fs.ok = true) (hn : fs.noNil = true) :
    EncF Γ fs l (bytesF Γ fs l) ∧ (bytesF Γ fs l).length ≤ x.length := by
  cases h with
  | nil => exact ⟨.nil, Nat.le_refl _⟩
  | cons h hl =>
    simp only [Flds.tags, Bool.and_eq_true, Bool.not_eq_true'] at hn
    simp only [Flds.ok, Bool.and_eq_true] at ho
    obtain ⟨h1, h2⟩ := enc_stable hΓ hN h ho.1.1.1.1 hn.1.2 hn.1.1
    obtain ⟨h3, h4⟩ := encF_stable hΓ hN hl ho.2 hn.2
    have hv := (enc_hasTy hΓ h ho.1.1.1.1).1
    have hvl := (encF_hasTy hΓ hl ho.2).1
    rw [bytesF]
    split
    · next hz =>
      rw [(isZero_iff hv ho.1.1.1.1).mp hz.2.1, (fldsZero_iff hvl ho.2).mp hz.2.2]
      exact ⟨.missing hz.1, by simp⟩
    · exact ⟨.cons h1 h3, by rw [List.length_append, List.length_append]; omega⟩
  | @missing g t fs hg =>
    simp only [Flds.ok, Bool.and_eq_true] at ho
    rw [bytesF, if_pos ⟨hg, (isZero_iff (zero_hasTy t ho.1.1.1.1) ho.1.1.1.1).mpr rfl,
      (fldsZero_iff (zeros_hasTy fs ho.2) ho.2).mpr rfl⟩]
    exact ⟨.missing hg, Nat.le_refl _⟩
end

/-! ### Theorems -/

/-- The longest input considered. -/
def maxInput : Nat := 2 ^ 63 - 3

/-- C111, from a stream: what is accepted are the bytes of the value, and exactly these are consumed. -/
theorem C111_stream (hΓ : ∀ i, (Γ i).ok = true) {t : Ty} (ho : t.ok true = true) {s s' : Stream} {v : Val} (hw : s.wf)
    (ha : s.ahead = none) (hl : s.r.length < maxInput) (h : s.decodeTy Γ t = (.ok v, s')) :
    ∃ x, Enc Γ {} t v x ∧ Cons s x s' := by
  unfold maxInput at hl
  unfold Stream.decodeTy at h
  exact (decTy_sound (N := s.r.length + 1) (by omega) (by omega) (named_ok hΓ (by omega) _ (by omega)) t {} ho).ok hw ha (by omega) h

/-- C110, from a stream: the bytes of a value are read as the value. -/
theorem C110_stream (hΓ : ∀ i, (Γ i).ok = true) {t : Ty} (ho : t.ok true = true) {s : Stream} {v : Val} {x r : Bytes} (hw : s.wf)
    (ha : s.ahead = none) (hl : s.r.length < maxInput) (hx : Enc Γ {} t v x) (hr : s.r = x ++ r) (hf : s.fits x.length) :
    ∃ s', s.decodeTy Γ t = (.ok v, s') ∧ s'.r = r := by
  unfold maxInput at hl
  unfold Stream.decodeTy
  exact decTy_complete (N := s.r.length + 1) (by omega) (by omega) (named_ok hΓ (by omega) _ (by omega)) t {} v x ho rfl hx
    hw ha (by omega) hr hf

/-- C111: an input is accepted, with this value, exactly when it stands for the value. -/
theorem C111_accepts (hΓ : ∀ i, (Γ i).ok = true) {t : Ty} (ho : t.ok true = true) {b : Bytes} (hb : b.length < maxInput) (v : Val) :
    decodeBytesTy Γ t b = .ok v ↔ Enc Γ {} t v b := by
  unfold decodeBytesTy
  constructor
  · intro h
    cases hd : (Stream.ofBytes b).decodeTy Γ t with
    | mk o s =>
      rw [hd] at h
      cases o with
      | error e => simp at h
      | ok w =>
        simp only at h
        split at h
        · simp at h
        · next h0 =>
          simp only [Except.ok.injEq] at h
          subst h
          obtain ⟨x, h1, h2⟩ := C111_stream hΓ ho (ofBytes_wf b) rfl hb hd
          have hr := h2.r
          have hs : s.r = [] := List.length_eq_zero_iff.mp (by omega)
          rw [hs, List.append_nil] at hr
          have hr : b = x := hr
          rw [hr]; exact h1
  · intro h
    obtain ⟨s', e1, e2⟩ := C110_stream (r := []) hΓ ho (ofBytes_wf b) rfl hb h (by simp [Stream.ofBytes])
      ⟨by simp [Stream.ofBytes], by simp [Stream.ofBytes]⟩
    rw [e1]
    simp [e2]

/-- C111: what is decoded is a value of the type, without negative numbers. -/
theorem C111_typed (hΓ : ∀ i, (Γ i).ok = true) {t : Ty} (ho : t.ok true = true) {b : Bytes} (hb : b.length < maxInput) {v : Val}
    (h : decodeBytesTy Γ t b = .ok v) : HasTy Γ t v ∧ v.neg = false :=
  enc_hasTy hΓ ((C111_accepts hΓ ho hb v).mp h) ho

/-- C112: without optional fields, only the encoding of a value is accepted. -/
theorem C112_canonical_partial (hΓ : ∀ i, (Γ i).ok = true) (hO : ∀ i, (Γ i).noOptional = true) {t : Ty} (ho : t.ok true = true)
    (hot : t.noOptional = true) {b : Bytes} (hb : b.length < maxInput) {v : Val} (h : decodeBytesTy Γ t b = .ok v) :
    encodeTy Γ t v = .ok b := by
  have he := (C111_accepts hΓ ho hb v).mp h
  obtain ⟨h1, h2⟩ := enc_hasTy hΓ he ho
  have hx := enc_bytesOf hO he hot
  unfold maxInput at hb
  rw [← hx] at hb ⊢
  exact C110_encode hΓ h1 ho h2 (by omega)

/-- C112: without optional fields, different inputs have different values. -/
theorem C112_injective_partial (hΓ : ∀ i, (Γ i).ok = true) (hO : ∀ i, (Γ i).noOptional = true) {t : Ty} (ho : t.ok true = true)
    (hot : t.noOptional = true) {b c : Bytes} (hb : b.length < maxInput) (hc : c.length < maxInput) {v : Val}
    (h1 : decodeBytesTy Γ t b = .ok v) (h2 : decodeBytesTy Γ t c = .ok v) : b = c := by
  have e1 := C112_canonical_partial hΓ hO ho hot hb h1
  have e2 := C112_canonical_partial hΓ hO ho hot hc h2
  rw [e1] at e2
  simpa using e2

/-- C110: what is encoded is read back, nil as empty where the format cannot tell. -/
theorem C110_roundtrip (hΓ : ∀ i, (Γ i).ok = true) {t : Ty} (ho : t.ok true = true) {v w : Val} (hv : HasTy Γ t v)
    (hn : v.neg = false) (hr : Reads Γ {} t v w) (hx : (bytesOf Γ {} t v).length < maxInput) :
    ∃ b, encodeTy Γ t v = .ok b ∧ decodeBytesTy Γ t b = .ok w :=
  ⟨_, C110_encode hΓ hv ho hn (by unfold maxInput at hx; omega), (C111_accepts hΓ ho hx w).mpr (reads_enc hΓ hr hv ho)⟩

/-- C110: values without nil are read back as they were. -/
theorem C110_plain (hΓ : ∀ i, (Γ i).ok = true) {t : Ty} (ho : t.ok true = true) {v : Val} (hv : Plain Γ t v)
    (hx : (bytesOf Γ {} t v).length < maxInput) : ∃ b, encodeTy Γ t v = .ok b ∧ decodeBytesTy Γ t b = .ok v := by
  obtain ⟨h1, h2⟩ := plain_hasTy hΓ hv ho
  exact C110_roundtrip hΓ ho h1 h2 (plain_reads hv rfl) hx

/-- C110: different values without nil have different encodings. -/
theorem C110_injective (hΓ : ∀ i, (Γ i).ok = true) {t : Ty} (ho : t.ok true = true) {v w : Val} (hv : Plain Γ t v) (hw : Plain Γ t w)
    (hx : (bytesOf Γ {} t v).length < maxInput) (hy : (bytesOf Γ {} t w).length < maxInput) (h : encodeTy Γ t v = encodeTy Γ t w) :
    v = w := by
  obtain ⟨b, e1, e2⟩ := C110_plain hΓ ho hv hx
  obtain ⟨c, f1, f2⟩ := C110_plain hΓ ho hw hy
  rw [e1, f1] at h
  simp only [Res.ok.injEq] at h
  rw [h, f2] at e2
  simpa using e2.symm

theorem defaultNil_text (t : Ty) : t.defaultNil = .string ↔ t.Text := by
  constructor
  · intro h
    cases t <;> first | constructor | simp [Ty.defaultNil] at h
  · rintro ⟨⟩ <;> rfl

theorem isNum_number (t : Ty) : t.isNum = true ↔ t.Number := by
  constructor
  · intro h
    cases t <;> first | constructor | simp [Ty.isNum] at h
  · rintro ⟨⟩ <;> rfl

/-- C110: a nil pointer is written as the empty string if the values of its target are strings, else as the empty list. -/
theorem C110_nilPointer (hΓ : ∀ i, (Γ i).ok = true) {t : Ty} (ho : t.ok true = true) :
    ((t.Text ∨ t.Number) → encodeTy Γ (.ptr t) .nil = .ok [0x80]) ∧
    (¬ (t.Text ∨ t.Number) → encodeTy Γ (.ptr t) .nil = .ok [0xC0]) := by
  have h := C110_encode (Γ := Γ) hΓ (t := .ptr t) (v := .nil) .ptrNil (by simpa [Ty.ok] using ho) rfl (by simp [bytesOf])
  simp only [bytesOf, nilByte, typeNilKind, Bool.false_eq_true, if_false] at h
  rw [← defaultNil_text, ← isNum_number]
  constructor
  · rintro (h1 | h1)
    · rw [h, h1]; simp
    · rw [h, h1]; simp
  · intro h1
    rw [h]
    simp only [not_or] at h1
    simp [h1.1, h1.2]

/-- C110: in a struct, the tag of the field decides, except for the big integers. -/
theorem C110_nilByte (g : Tags) (t : Ty) : (nilByte g t = 0x80 ∨ nilByte g t = 0xC0) ∧ (nilByte g t = 0x80 ↔
    t.Number ∨ (g.nilOK = true ∧ g.nilKind = .string) ∨ (g.nilOK = false ∧ t.Text)) := by
  rw [← defaultNil_text, ← isNum_number]
  unfold nilByte typeNilKind
  cases t.isNum <;> cases g.nilOK <;> cases g.nilKind <;> cases t.defaultNil <;> simp

/-- C113: without `nil` tags, a decoded value is encoded in no more bytes than it was read from, and read back as it was. -/
theorem C113_stable_partial (hΓ : ∀ i, (Γ i).ok = true) (hN : ∀ i, (Γ i).noNil = true) {t : Ty} (ho : t.ok true = true)
    (hnt : t.noNil = true) {b : Bytes} (hb : b.length < maxInput) {v : Val} (h : decodeBytesTy Γ t b = .ok v) :
    ∃ c, encodeTy Γ t v = .ok c ∧ c.length ≤ b.length ∧ decodeBytesTy Γ t c = .ok v := by
  have he := (C111_accepts hΓ ho hb v).mp h
  obtain ⟨h1, h2⟩ := enc_hasTy hΓ he ho
  obtain ⟨h3, h4⟩ := enc_stable hΓ hN he ho hnt rfl
  exact ⟨_, C110_encode hΓ h1 ho h2 (by unfold maxInput at hb; omega), h4, (C111_accepts hΓ ho (by omega) v).mpr h3⟩

/-- C113: without optional fields likewise. -/
theorem C113_stable_noOptional_partial (hΓ : ∀ i, (Γ i).ok = true) (hO : ∀ i, (Γ i).noOptional = true) {t : Ty} (ho : t.ok true = true)
    (hot : t.noOptional = true) {b : Bytes} (hb : b.length < maxInput) {v : Val} (h : decodeBytesTy Γ t b = .ok v) :
    ∃ c, encodeTy Γ t v = .ok c ∧ c.length ≤ b.length ∧ decodeBytesTy Γ t c = .ok v :=
  ⟨b, C112_canonical_partial hΓ hO ho hot hb h, Nat.le_refl _, h⟩

/-- The fuel of the model is enough, and the end of a list is not reported outside. -/
theorem decodeTy_fuel (hΓ : ∀ i, (Γ i).ok = true) {t : Ty} (ho : t.ok true = true) {b : Bytes} (hb : b.length < maxInput) :
    decodeBytesTy Γ t b ≠ .error .outOfFuel ∧ decodeBytesTy Γ t b ≠ .error .eol := by
  unfold maxInput at hb
  unfold decodeBytesTy
  cases hd : (Stream.ofBytes b).decodeTy Γ t with
  | mk o s =>
    cases o with
    | ok v => simp only; split <;> simp
    | error e =>
      unfold Stream.decodeTy at hd
      have hlen : (Stream.ofBytes b).r.length = b.length := rfl
      rcases (decTy_sound (N := (Stream.ofBytes b).r.length + 1) (by omega) (by omega) (named_ok hΓ (by omega) _ (by omega)) t {} ho).err
        (ofBytes_wf b) rfl (by omega) hd with ⟨_, _, h⟩ | h
      · simp [Stream.ofBytes] at h
      · simp only [ne_eq, Except.error.injEq]
        exact ⟨h.2, h.1⟩

/-! ### Cases -/

mutual
/-- A test for equal values, for the cases below. -/
def Val.same : Val → Val → Bool
  | .bool a, .bool b => a == b
  | .num a, .num b => a == b
  | .bytes a, .bytes b => a == b
  | .nil, .nil => true
  | .ptr a, .ptr b => a.same b
  | .list l, .list m => sames l m
  | .any i, .any j => enc i == enc j && decide ((enc i).length < 2 ^ 63 - 2)
  | _, _ => false
def sames : List Val → List Val → Bool
  | [], [] => true
  | v :: l, w :: m => v.same w && sames l m
  | _, _ => false
end

mutual
theorem eq_of_same : ∀ {v w : Val}, v.same w = true → v = w
  | .bool a, w, h => by cases w <;> simp [Val.same] at h ⊢; exact h
  | .num a, w, h => by cases w <;> simp [Val.same] at h ⊢; exact h
  | .bytes a, w, h => by cases w <;> simp [Val.same] at h ⊢; exact h
  | .nil, w, h => by cases w <;> simp [Val.same] at h ⊢
  | .ptr a, w, h => by cases w <;> simp [Val.same] at h ⊢; exact eq_of_same h
  | .list l, w, h => by cases w <;> simp [Val.same] at h ⊢; exact eq_of_sames h
  | .any i, w, h => by cases w <;> simp [Val.same] at h ⊢; exact C68_injective h.2 h.1
theorem eq_of_sames : ∀ {l m : List Val}, sames l m = true → l = m
  | [], m, h => by cases m <;> simp [sames] at h ⊢
  | v :: l, m, h => by cases m <;> simp [sames] at h ⊢; exact ⟨eq_of_same h.1, eq_of_sames h.2⟩
end

/-- The value, if any, is this one. -/
def isOk (o : Except Err Val) (v : Val) : Bool :=
  match o with
  | .ok w => w.same v
  | .error _ => false

theorem of_isOk {o : Except Err Val} {v : Val} (h : isOk o v = true) : o = .ok v := by
  cases o with
  | error e => simp [isOk] at h
  | ok w => rw [eq_of_same h]

/-- The error, if any, is this one. -/
def isErr (o : Except Err Val) (e : Err) : Bool :=
  match o with
  | .ok _ => false
  | .error f => decide (f = e)

theorem of_isErr {o : Except Err Val} {e : Err} (h : isErr o e = true) : o = .error e := by
  cases o with
  | error f => rw [show f = e from by simpa [isErr] using h]
  | ok w => simp [isErr] at h

/-- No named types. -/
def noTypes : Nat → Flds := fun _ => .nil

/-- `type node struct { Key []byte; Size uint16; Left, Right *node \`rlp:"nil"\`; Rest []uint64 \`rlp:"tail"\` }`. -/
def nodeTypes : Nat → Flds := fun _ =>
  .cons {} .bytes (.cons {} (.uint 16) (.cons { nilOK := true, nilKind := .list } (.ptr (.ref 0))
    (.cons { nilOK := true, nilKind := .list } (.ptr (.ref 0)) (.cons { tail := true } (.slice (.uint 64)) .nil))))

def leaf (k : UInt8) (n : Nat) (l : List Val) : Val := .list [.bytes [k], .num n, .nil, .nil, .list l]

def tree : Val := .list [.bytes [0x80], .num 1024, .ptr (leaf 1 0 []), .nil, .list [.num 0, .num 127, .num 128]]

def treeBytes : Bytes := [0xCF, 0x81, 0x80, 0x82, 0x04, 0x00, 0xC4, 0x01, 0x80, 0xC0, 0xC0, 0xC0, 0x80, 0x7F, 0x81, 0x80]

theorem node_ok (i : Nat) : (nodeTypes i).ok = true := by simp only [nodeTypes]; decide

/-- The tree is read back. -/
example : encodeTy nodeTypes (.ref 0) tree = .ok treeBytes ∧ decodeBytesTy nodeTypes (.ref 0) treeBytes = .ok tree :=
  ⟨by decide +kernel, of_isOk (by decide +kernel)⟩

/-- Hence, by the theorem, it is what the bytes stand for. -/
example : Enc nodeTypes {} (.ref 0) tree treeBytes :=
  (C111_accepts node_ok rfl (by decide) tree).mp (of_isOk (by decide +kernel))

/-- `struct { A uint8; B []string \`rlp:"optional"\`; C uint64 \`rlp:"optional"\` }`. -/
def optTy : Ty := .struct (.cons {} (.uint 8) (.cons { optional := true } (.slice .str) (.cons { optional := true } (.uint 64) .nil)))
def optVal : Val := .list [.num 0, .list [.bytes [], .bytes [0x61]], .num 0]

theorem noTypes_ok (i : Nat) : (noTypes i).ok = true := rfl

example : Plain noTypes optTy optVal := .struct (.cons rfl (.uint 8 0 (by decide)) (.cons rfl
  (.slice (.cons (.str []) (.cons (.str [0x61]) .nil))) (.cons rfl (.uint 64 0 (by decide)) .nil)))

example : encodeTy noTypes optTy optVal = .ok [0xC4, 0x80, 0xC2, 0x80, 0x61] ∧
    decodeBytesTy noTypes optTy [0xC4, 0x80, 0xC2, 0x80, 0x61] = .ok optVal := ⟨by decide +kernel, of_isOk (by decide +kernel)⟩

/-- A nil slice before a field that is not zero is read back as an empty one. -/
example : decodeBytesTy noTypes optTy [0xC3, 0x80, 0xC0, 0x07] = .ok (.list [.num 0, .list [], .num 7]) ∧
    encodeTy noTypes optTy (.list [.num 0, .nil, .num 7]) = .ok [0xC3, 0x80, 0xC0, 0x07] := ⟨of_isOk (by decide +kernel), by decide +kernel⟩

/-! ### Where the code disagrees -/

/-- C112: an optional field given as zero is accepted, but written back without it: two inputs for one value. -/
theorem C112_canonical_refuted : ∃ t b c v, t.ok true = true ∧ decodeBytesTy noTypes t b = .ok v ∧ decodeBytesTy noTypes t c = .ok v ∧
    encodeTy noTypes t v = .ok c ∧ b ≠ c :=
  ⟨optTy, [0xC3, 0x05, 0xC0, 0x80], [0xC2, 0x05, 0xC0], .list [.num 5, .list [], .num 0], rfl, of_isOk (by decide +kernel),
    of_isOk (by decide +kernel), by decide +kernel, by decide⟩

/-- `struct { A *struct { B uint8 \`rlp:"optional"\` } \`rlp:"nil"\` }`. -/
def nilOptTy : Ty := .struct (.cons { nilOK := true, nilKind := .list }
  (.ptr (.struct (.cons { optional := true } (.uint 8) .nil))) .nil)

/-- C113: a pointer to a struct whose optional fields are given as zero is read back as nil. -/
theorem C113_stable_refuted : ∃ t b c v w, t.ok true = true ∧ decodeBytesTy noTypes t b = .ok v ∧ encodeTy noTypes t v = .ok c ∧
    decodeBytesTy noTypes t c = .ok w ∧ v ≠ w :=
  ⟨nilOptTy, [0xC2, 0xC1, 0x80], [0xC1, 0xC0], .list [.ptr (.list [.num 0])], .list [.nil], rfl, of_isOk (by decide +kernel),
    by decide +kernel, of_isOk (by decide +kernel), by simp⟩

/-- `struct { A *struct { B uint8 } }`. -/
def ptrTy : Ty := .struct (.cons {} (.ptr (.struct (.cons {} (.uint 8) .nil))) .nil)

/-- C113: a nil pointer to a struct with a mandatory field is written, but cannot be read. -/
theorem C113_nil_refuted : ∃ t v b, t.ok true = true ∧ HasTy noTypes t v ∧ encodeTy noTypes t v = .ok b ∧
    decodeBytesTy noTypes t b = .error .tooFew :=
  ⟨ptrTy, .list [.nil], [0xC1, 0xC0], rfl, .struct (.cons .ptrNil .nil), by decide +kernel, of_isErr (by decide +kernel)⟩

/-- `struct { A *uint8 \`rlp:"nilList"\` }`. -/
def nilListTy : Ty := .struct (.cons { nilOK := true, nilKind := .list } (.ptr (.uint 8)) .nil)

/-- C113: a pointer to zero, in a field whose nil is the empty list, is written, but cannot be read. -/
theorem C113_nilKind_refuted : ∃ t v b, t.ok true = true ∧ HasTy noTypes t v ∧ encodeTy noTypes t v = .ok b ∧
    decodeBytesTy noTypes t b = .error .wrongNil :=
  ⟨nilListTy, .list [.ptr (.num 0)], [0xC1, 0x80], rfl, .struct (.cons (.ptr (.uint 8 0 (by decide))) .nil), by decide +kernel,
    of_isErr (by decide +kernel)⟩

/-- A type of each sort for the partial theorems. -/
example : optTy.noNil = true ∧ optTy.noOptional = false ∧ ptrTy.noOptional = true ∧ nilOptTy.noNil = false ∧
    (nodeTypes 0).noOptional = true := ⟨rfl, rfl, rfl, rfl, rfl⟩

end Verif.Rlp
