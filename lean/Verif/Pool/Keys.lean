import Verif.Pool.Props

/-!
# Property C187: one goroutine at a time uses the map of key counts

Workers use `routinePoolKeyCountMap` under `routinePoolKeyCountLock` (/repo/routinepool.go:162-187). `KeyCount` returns the map itself
without the lock (/repo/routinepool.go:188-190), so whoever called it reads the map while workers may write.
-/

namespace Verif.Pool.Keys
open Verif Verif.Pool

variable {V : Type}

/-! ### The code -/

/-- The program, and how many callers of `KeyCount` are going through the map they got. -/
structure Prog (V : Type) where
  sys : Sys V
  readers : Nat

/-- A step of the pools, or a caller begins to go through the result of `KeyCount` (/repo/routinepool.go:188-190), or ends. -/
inductive PStep (cf : Nat → Conf V) : Prog V → Prog V → Prop
  | pools {s s' n} (h : Step cf s s') : PStep cf ⟨s, n⟩ ⟨s', n⟩
  | keyCount {s n} : PStep cf ⟨s, n⟩ ⟨s, n + 1⟩
  | done {s n} : PStep cf ⟨s, n + 1⟩ ⟨s, n⟩

/-- The states that occur. -/
inductive Reach (cf : Nat → Conf V) : Prog V → Prop
  | start : Reach cf ⟨initial cf, 0⟩
  | step {p q} : Reach cf p → PStep cf p q → Reach cf q

/-! ### Specification -/

/-- The worker is about to look up a key in the map. -/
def looks : Pc V → Prop
  | .inc2 .. | .dec2 .. => True
  | _ => False

/-- The worker is about to write into the map. -/
def writes : Pc V → Prop
  | .inc3 .. | .dec3 .. => True
  | _ => False

/-- Two goroutines use the map at once and one of them writes. -/
def Clash (p : Prog V) : Prop :=
  ∃ (i : Nat) (g : G V), p.sys.gs[i]? = some g ∧ writes g.pc ∧
    (0 < p.readers ∨ ∃ (j : Nat) (g' : G V), j ≠ i ∧ p.sys.gs[j]? = some g' ∧ (looks g'.pc ∨ writes g'.pc))

/-! ### Proof -/

theorem Reach.sys {cf : Nat → Conf V} {p : Prog V} (h : Reach cf p) : Reachable cf p.sys := by
  induction h with
  | start => exact .refl _
  | step _ hs ih =>
    cases hs with
    | pools h => exact ih.tail h
    | keyCount => exact ih
    | done => exact ih

theorem holds_of {pc : Pc V} (h : looks pc ∨ writes pc) : holds pc = true := by
  cases pc <;> simp_all [looks, writes, holds]

theorem two_hold {f : G V → Bool} : ∀ {l : List (G V)} {i j : Nat} {a b : G V}, i < j → l[i]? = some a → l[j]? = some b → f a = true → f b = true →
    2 ≤ l.countP f := by
  intro l
  induction l with
  | nil => intro i j a b _ h; simp at h
  | cons x l ih =>
    intro i j a b hij hi hj ha hb
    cases j with
    | zero => omega
    | succ j =>
      rw [List.getElem?_cons_succ] at hj
      cases i with
      | zero =>
        simp only [List.getElem?_cons_zero, Option.some.injEq] at hi
        subst hi
        rw [List.countP_cons_of_pos ha]
        have : 0 < l.countP f := List.countP_pos_iff.2 ⟨b, List.mem_of_getElem? hj, hb⟩
        omega
      | succ i =>
        rw [List.getElem?_cons_succ] at hi
        have := ih (by omega) hi hj ha hb
        rw [List.countP_cons]
        omega

/-! ### C187 -/

/-- **C187, workers.** In every execution of any pools, at most one worker is looking into the map of key counts or writing into it, and
then the lock is held. -/
theorem C187_workers {cf : Nat → Conf V} {p : Prog V} (h : Reach cf p) {i : Nat} {a : G V} (hi : p.sys.gs[i]? = some a)
    (ha : looks a.pc ∨ writes a.pc) :
    p.sys.lock = true ∧ ∀ j b, p.sys.gs[j]? = some b → looks b.pc ∨ writes b.pc → j = i := by
  have k := (kinv h.sys).hold
  constructor
  · cases hl : p.sys.lock with
    | true => rfl
    | false =>
      rw [hl] at k
      have : 0 < p.sys.gs.countP (fun g => holds g.pc) := List.countP_pos_iff.2 ⟨a, List.mem_of_getElem? hi, holds_of ha⟩
      simp [b2n] at k
      have := k a (List.mem_of_getElem? hi)
      rw [holds_of ha] at this
      cases this
  · intro j b hj hb
    have hk : p.sys.gs.countP (fun g => holds g.pc) ≤ 1 := by rw [k]; cases p.sys.lock <;> simp [b2n]
    rcases Nat.lt_trichotomy i j with e | e | e
    · have := two_hold (f := fun g => holds g.pc) e hi hj (holds_of ha) (holds_of hb); omega
    · exact e.symm
    · have := two_hold (f := fun g => holds g.pc) e hj hi (holds_of hb) (holds_of ha); omega

/-- **C187.** Nothing uses the map while it is written, if nobody is going through the result of `KeyCount`, or if no event has a key. -/
theorem C187_alone_partial {cf : Nat → Conf V} {p : Prog V} (h : Reach cf p) (hc : p.readers = 0 ∨ ∀ q v, (cf q).key v = []) : ¬ Clash p := by
  rintro ⟨i, g, hi, hw, hr⟩
  rcases hc with hc | hc
  · rcases hr with hr | ⟨j, g', hj, hg, hu⟩
    · omega
    · exact hj ((C187_workers h hi (.inr hw)).2 j g' hg hu)
  · have k := (kinv h.sys).keyed g (List.mem_of_getElem? hi)
    cases hg : g.pc <;> simp only [hg, writes] at hw
    · exact k _ (by rw [hg]; rfl) (hc _ _)
    · exact k _ (by rw [hg]; rfl) (hc _ _)

/-- C187 fails for callers of `KeyCount`: whenever a worker is about to write, a caller can begin to go through the map. -/
theorem C187_keyCount_refuted : (∀ (cf : Nat → Conf V) (p : Prog V), Reach cf p → ∀ g ∈ p.sys.gs, writes g.pc →
      Reach cf ⟨p.sys, p.readers + 1⟩ ∧ Clash ⟨p.sys, p.readers + 1⟩) ∧
    ∃ p, Reach exConf p ∧ Clash p := by
  refine ⟨?_, ?_⟩
  · intro cf p h g hg hw
    obtain ⟨i, hi⟩ := List.mem_iff_getElem?.1 hg
    exact ⟨h.step .keyCount, i, g, hi, hw, .inl (Nat.succ_pos _)⟩
  · have h2 := Reach.start.step (cf := exConf) (.pools (Step.client 0 (Client.postH (some 7))))
    have h3 := h2.step (.pools (Step.client 0 (Client.start rfl rfl)))
    have h4 := h3.step (.pools (Step.client 0 (Client.spawn rfl (by decide))))
    have h5 := h4.step .keyCount
    have h6 := h5.step (.pools (Step.work 0 0 [] [] (Work.high1 rfl)))
    have h7 := h6.step (.pools (Step.work 0 0 [] [] (Work.keyed rfl (by simp [exConf]))))
    have h8 := h7.step (.pools (Step.work 0 0 [] [] Work.incLock))
    have h9 := h8.step (.pools (Step.work 0 0 [] [] Work.incRead))
    exact ⟨_, h9, 0, _, rfl, trivial, .inl (by decide)⟩

/-- A worker writes while nobody reads. -/
example : ∃ p, Reach exConf p ∧ p.readers = 0 ∧ ∃ g, p.sys.gs[0]? = some g ∧ writes g.pc := by
  have h2 := Reach.start.step (cf := exConf) (.pools (Step.client 0 (Client.postH (some 7))))
  have h3 := h2.step (.pools (Step.client 0 (Client.start rfl rfl)))
  have h4 := h3.step (.pools (Step.client 0 (Client.spawn rfl (by decide))))
  have h6 := h4.step (.pools (Step.work 0 0 [] [] (Work.high1 rfl)))
  have h7 := h6.step (.pools (Step.work 0 0 [] [] (Work.keyed rfl (by simp [exConf]))))
  have h8 := h7.step (.pools (Step.work 0 0 [] [] Work.incLock))
  have h9 := h8.step (.pools (Step.work 0 0 [] [] Work.incRead))
  exact ⟨_, h9, rfl, _, rfl, trivial⟩

end Verif.Pool.Keys
