import Verif.Pool.Model

/-!
# What holds of the routine pool in every execution
-/

namespace Verif.Pool

variable {V : Type}

/-! ## Channels -/

/-- The buffer never holds more than the capacity, and a sender waits only when it is full. -/
def Chan.Ok (cap : Nat) (c : Chan V) : Prop := c.buf.length ≤ cap ∧ (c.sendq ≠ [] → c.buf.length = cap)

theorem send_all {cap : Nat} {c : Chan V} (v : V) : (c.send cap v).all = c.all ++ [v] := by
  unfold Chan.send Chan.all
  split
  · rename_i h
    have : c.sendq = [] := by simp at h; exact h.1
    simp [this]
  · simp

theorem send_ok {cap : Nat} {c : Chan V} (v : V) (h : c.Ok cap) : (c.send cap v).Ok cap := by
  unfold Chan.send
  split
  · rename_i hc
    simp at hc
    refine ⟨?_, ?_⟩
    · simp; omega
    · intro hq; exact absurd hc.1 hq
  · rename_i hc
    refine ⟨h.1, fun _ => ?_⟩
    simp at hc
    by_cases hs : c.sendq = []
    · have := hc hs; have := h.1; show c.buf.length = cap; omega
    · exact h.2 hs

theorem recv_all {c c' : Chan V} {v : V} (h : c.recv = some (v, c')) : c.all = v :: c'.all := by
  obtain ⟨b, q⟩ := c
  cases b <;> cases q <;> simp [Chan.recv] at h
  all_goals (obtain ⟨rfl, rfl⟩ := h; simp [Chan.all])

theorem recv_none {c : Chan V} : c.recv = none ↔ c.all = [] := by
  obtain ⟨b, q⟩ := c
  cases b <;> cases q <;> simp [Chan.recv, Chan.all]

theorem recv_ok {cap : Nat} {c c' : Chan V} {v : V} (h : c.recv = some (v, c')) (ho : c.Ok cap) : c'.Ok cap := by
  obtain ⟨b, q⟩ := c
  obtain ⟨h1, h2⟩ := ho
  cases b <;> cases q <;> simp [Chan.recv] at h
  all_goals (obtain ⟨rfl, rfl⟩ := h; simp at h1 h2; refine ⟨?_, ?_⟩ <;> simp <;> omega)

/-! ## Counting goroutines -/

/-- Number of goroutines of pool `p` with `f`. -/
def cnt (p : Nat) (f : Pc V → Bool) (gs : List (G V)) : Nat := gs.countP fun g => g.pool == p && f g.pc

/-- Has returned. -/
def isDead : Pc V → Bool
  | .dead => true
  | _ => false

/-- Waits in the inner `select`. -/
def isSel2 : Pc V → Bool
  | .sel2 => true
  | _ => false

def b2n (b : Bool) : Nat := if b then 1 else 0

theorem cnt_mid (p : Nat) (f : Pc V → Bool) (l r : List (G V)) (g : G V) :
    cnt p f (l ++ g :: r) = cnt p f l + cnt p f r + b2n (g.pool == p && f g.pc) := by
  simp only [cnt, List.countP_append, List.countP_cons, b2n]; omega

theorem cnt_append (p : Nat) (f : Pc V → Bool) (l r : List (G V)) : cnt p f (l ++ r) = cnt p f l + cnt p f r := by
  simp [cnt, List.countP_append]

theorem inProgs_mid (p : Nat) (l r : List (G V)) (g : G V) :
    inProgs p (l ++ g :: r) = inProgs p l ++ (if g.pool = p then (inProg g.pc).toList else []) ++ inProgs p r := by
  simp only [inProgs, List.filterMap_append, List.filterMap_cons]
  split <;> simp_all

theorem inProgs_append (p : Nat) (l r : List (G V)) : inProgs p (l ++ r) = inProgs p l ++ inProgs p r := by
  simp [inProgs]

theorem cnt_zero_inProgs {p : Nat} {l : List (G V)} (h : cnt p (fun _ => true) l = 0) : inProgs p l = [] := by
  induction l with
  | nil => rfl
  | cons g l ih =>
    simp only [cnt, List.countP_cons] at h ih
    have hp : ¬ g.pool = p := by
      intro hp
      simp [hp] at h
    simp [inProgs, hp] at ih ⊢
    intro a ha hap
    refine ih ?_ a ha hap
    simp [hp] at h
    simpa using h

theorem cnt_le {p : Nat} {f f' : Pc V → Bool} {l : List (G V)} (h : ∀ pc, f pc = true → f' pc = true) : cnt p f l ≤ cnt p f' l := by
  unfold cnt
  apply List.countP_mono_left
  intro g _ hg
  simp at hg ⊢
  exact ⟨hg.1, h _ hg.2⟩

/-- The calls of `workFunc` an event list leads to. -/
def called (c : Conf V) (l : List (Bool × Option V)) : List V := if c.work then l.filterMap (·.2) else []

/-- `workFunc` has been called for the event and has not finished its bookkeeping. -/
def past : Pc V → Option V
  | .run _ v | .dec1 _ v | .dec2 _ v | .dec3 _ v _ => some v
  | _ => none

def pasts (p : Nat) (gs : List (G V)) : List V := gs.filterMap fun g => if g.pool = p then past g.pc else none

theorem pasts_mid (p : Nat) (l r : List (G V)) (g : G V) :
    pasts p (l ++ g :: r) = pasts p l ++ (if g.pool = p then (past g.pc).toList else []) ++ pasts p r := by
  simp only [pasts, List.filterMap_append, List.filterMap_cons]
  split <;> simp_all

theorem pasts_append (p : Nat) (l r : List (G V)) : pasts p (l ++ r) = pasts p l ++ pasts p r := by
  simp [pasts]

/-- Inside `event`, after the check for nil. -/
def isIn : Pc V → Bool
  | .inc1 .. | .inc2 .. | .inc3 .. | .run .. | .dec1 .. | .dec2 .. | .dec3 .. => true
  | _ => false

/-- How many workers of pool `s` have been spawned. -/
def spawnedOf (n : Nat) (s : PState V) : Nat :=
  match s.op with
  | some (.starting i) => (s.starts - 1) * n + i
  | _ => s.starts * n

/-! ## The invariant of a pool -/

/-- The invariant of pool `p`, relative to the workers `gs`. -/
structure Inv (c : Conf V) (p : Nat) (s : PState V) (gs : List (G V)) : Prop where
  okH : s.higher.Ok c.cap
  okL : s.lower.Ok c.cap
  fifoH : (s.taken.filter (·.1)).map (·.2) ++ s.higher.all = s.postedH
  fifoL : (s.taken.filter (!·.1)).map (·.2) ++ s.lower.all = s.postedL
  perm : s.taken.Perm (s.handled ++ inProgs p gs)
  one : c.n = 1 → s.starts ≤ 1 → s.taken = s.handled ++ inProgs p gs
  calls : (s.calls.map (·.2)).Perm (called c s.handled ++ pasts p gs)
  works : cnt p isIn gs ≠ 0 → c.work = true
  spawned : cnt p (fun _ => true) gs = spawnedOf c.n s
  wg : s.wg + cnt p isDead gs = c.n
  starting : ∀ i, s.op = some (.starting i) → i ≤ c.n ∧ s.started = true
  flag : s.starts = s.stops + b2n s.started
  closed : s.quit = true ↔ 0 < s.stops
  stopping : s.stops = s.stopped + (match s.op with | some .stopping => 1 | _ => 0)
  prio : s.higher.all ≠ [] → s.lowSince + cnt p isSel2 gs ≤ cnt p (fun _ => true) gs
  idle : s.higher.all = [] → s.lowSince = 0
  exits : 0 < s.stopped → s.wg ≤ 0

theorem inv_initial (c : Conf V) (p : Nat) : Inv c p (newPool c) [] := by
  constructor <;> simp [newPool, Chan.Ok, Chan.all, inProgs, pasts, called, cnt, spawnedOf, b2n]

/-- Goroutines of other pools do not matter. -/
theorem inv_other {c : Conf V} {p q : Nat} {s : PState V} {l r : List (G V)} {w : Nat} {pc pc' : Pc V} (hq : q ≠ p)
    (h : Inv c p s (l ++ ⟨q, w, pc⟩ :: r)) : Inv c p s (l ++ ⟨q, w, pc'⟩ :: r) := by
  have e1 : inProgs p (l ++ ⟨q, w, pc'⟩ :: r) = inProgs p (l ++ ⟨q, w, pc⟩ :: r) := by simp [inProgs_mid, hq]
  have e2 : pasts p (l ++ ⟨q, w, pc'⟩ :: r) = pasts p (l ++ ⟨q, w, pc⟩ :: r) := by simp [pasts_mid, hq]
  have e3 : ∀ f, cnt p f (l ++ ⟨q, w, pc'⟩ :: r) = cnt p f (l ++ ⟨q, w, pc⟩ :: r) := by
    intro f
    have : (q == p) = false := by simpa using hq
    simp [cnt_mid, this]
  constructor <;> (try simp only [e1, e2, e3]) <;> cases h <;> assumption

theorem inv_spawn_other {c : Conf V} {p q : Nat} {s : PState V} {gs : List (G V)} {ws : List Nat} (hq : q ≠ p) (h : Inv c p s gs) :
    Inv c p s (gs ++ ws.map fun i => ⟨q, i, .sel1⟩) := by
  have e1 : inProgs p (gs ++ ws.map fun i => ⟨q, i, .sel1⟩) = inProgs p gs := by
    simp [inProgs, hq]
  have e2 : pasts p (gs ++ ws.map fun i => ⟨q, i, .sel1⟩) = pasts p gs := by
    simp [pasts, hq]
  have e3 : ∀ f, cnt p f (gs ++ ws.map fun i => ⟨q, i, .sel1⟩) = cnt p f gs := by
    intro f
    simp [cnt, hq]
  constructor <;> (try simp only [e1, e2, e3]) <;> cases h <;> assumption

theorem inv_client {c : Conf V} {p : Nat} {s s' : PState V} {gs : List (G V)} {ws : List Nat} {b : Bool}
    (hc : Client c s s' ws b) (h : Inv c p s gs) :
    Inv c p s' (gs ++ ws.map fun i => ⟨p, i, .sel1⟩) ∧ (b = true → 2 ≤ s'.starts) := by
  cases hc with
  | postH v =>
    refine ⟨?_, by simp⟩
    simp only [List.map_nil, List.append_nil]
    refine { h with okH := send_ok v h.okH, fifoH := ?_, prio := ?_, idle := ?_, spawned := h.spawned }
    · show _ ++ (s.higher.send c.cap v).all = s.postedH ++ [v]
      rw [send_all, ← h.fifoH]; simp
    · intro _
      show s.lowSince + cnt p isSel2 gs ≤ cnt p (fun _ => true) gs
      by_cases he : s.higher.all = []
      · rw [h.idle he]
        have : cnt p isSel2 gs ≤ cnt p (fun _ => true) gs := cnt_le fun _ _ => rfl
        omega
      · exact h.prio he
    · intro he
      have he : (s.higher.send c.cap v).all = [] := he
      rw [send_all] at he
      simp at he
  | postL v =>
    refine ⟨?_, by simp⟩
    simp only [List.map_nil, List.append_nil]
    refine { h with okL := send_ok v h.okL, fifoL := ?_, spawned := h.spawned }
    · show _ ++ (s.lower.send c.cap v).all = s.postedL ++ [v]
      rw [send_all, ← h.fifoL]; simp
  | startNop ho hs => simpa using h
  | start ho hs => 
    refine ⟨?_, by simp⟩
    have hs0 : s.op = none := by simpa using ho
    simp only [List.map_nil, List.append_nil]
    have h1 := h.spawned
    have h2 := h.flag
    have h3 := h.stopping
    simp only [hs0, hs, b2n] at h1 h2 h3
    refine { h with one := ?_, starting := ?_, spawned := ?_, flag := ?_, stopping := ?_ }
    · intro hn hl
      exact h.one hn (by show s.starts ≤ 1; have : s.starts + 1 ≤ 1 := hl; omega)
    · simp [spawnedOf, hs0] at h1 ⊢; exact h1
    · rintro i hi; cases hi; exact ⟨Nat.zero_le _, rfl⟩
    · show s.starts + 1 = s.stops + b2n true
      simp [b2n]; simpa using h2
    · simpa using h3
  | spawn ho hi =>
    rename_i i
    refine ⟨?_, by simp⟩
    have e1 : inProgs p (gs ++ [(⟨p, i, .sel1⟩ : G V)]) = inProgs p gs := by simp [inProgs, inProg]
    have e2 : pasts p (gs ++ [(⟨p, i, .sel1⟩ : G V)]) = pasts p gs := by simp [pasts, past]
    have e3 : cnt p (fun _ => true) (gs ++ [(⟨p, i, .sel1⟩ : G V)]) = cnt p (fun _ => true) gs + 1 := by simp [cnt]
    have e4 : cnt p isDead (gs ++ [(⟨p, i, .sel1⟩ : G V)]) = cnt p isDead gs := by simp [cnt, isDead]
    have e6 : cnt p isIn (gs ++ [(⟨p, i, .sel1⟩ : G V)]) = cnt p isIn gs := by simp [cnt, isIn]
    have e5 : cnt p isSel2 (gs ++ [(⟨p, i, .sel1⟩ : G V)]) = cnt p isSel2 gs := by simp [cnt, isSel2]
    have h1 := h.spawned
    have h2 := h.starting i ho
    have h3 := h.stopping
    simp only [List.map_cons, List.map_nil]
    refine { h with perm := ?_, one := ?_, calls := ?_, works := ?_, spawned := ?_, wg := ?_, starting := ?_, stopping := ?_, prio := ?_ }
    · rw [e1]; exact h.perm
    · rw [e1]; exact h.one
    · rw [e2]; exact h.calls
    · rw [e6]; exact h.works
    · rw [e3]; simp [spawnedOf, ho] at h1 ⊢; omega
    · rw [e4]; exact h.wg
    · rintro j hj; simp at hj; exact ⟨by omega, h2.2⟩
    · simp [ho] at h3 ⊢; exact h3
    · rw [e3, e5]; intro hh; have := h.prio hh; show s.lowSince + _ ≤ _; omega
  | startEnd ho hi =>
    rename_i i
    refine ⟨?_, by simp⟩
    have h1 := h.spawned
    have h2 := h.starting i ho
    have h3 := h.stopping
    have h4 := h.flag
    simp only [List.map_nil, List.append_nil]
    refine { h with spawned := ?_, starting := ?_, stopping := ?_ }
    · have hin : i = c.n := by omega
      simp only [spawnedOf, ho] at h1 ⊢
      have hst : s.starts ≥ 1 := by rw [h2.2] at h4; simp [b2n] at h4; omega
      rw [h1, hin, Nat.sub_mul, Nat.one_mul]
      have : c.n ≤ s.starts * c.n := Nat.le_mul_of_pos_left _ hst
      omega
    · intro j hj; simp at hj
    · simp [ho] at h3 ⊢; exact h3
  | stopNop ho hs => simpa using h
  | stop ho hs =>
    have hs0 : s.op = none := by simpa using ho
    have h1 := h.spawned
    have h2 := h.flag
    have h3 := h.stopping
    simp only [hs0, hs, b2n] at h1 h2 h3
    simp at h2 h3
    refine ⟨?_, ?_⟩
    · simp only [List.map_nil, List.append_nil]
      refine { h with spawned := ?_, starting := ?_, flag := ?_, closed := ?_, stopping := ?_ }
      · simp [spawnedOf, hs0] at h1 ⊢; exact h1
      · intro j hj; simp at hj
      · show s.starts = s.stops + 1 + b2n false
        simp [b2n]; exact h2
      · simp
      · simpa using h3
    · intro hq
      have := h.closed.1 hq
      show 2 ≤ s.starts
      omega
  | stopEnd ho hw =>
    refine ⟨?_, by simp⟩
    have h1 := h.spawned
    have h3 := h.stopping
    simp only [List.map_nil, List.append_nil]
    refine { h with spawned := ?_, starting := ?_, stopping := ?_, exits := ?_ }
    · simp [spawnedOf, ho] at h1 ⊢; exact h1
    · intro j hj; simp at hj
    · simp [ho] at h3 ⊢; exact h3
    · intro _; rw [hw]; exact Int.le_refl 0

/-- The invariant after a worker has moved. -/
theorem inv_move {c : Conf V} {p w : Nat} {s s' : PState V} {l r : List (G V)} {pc pc' : Pc V} (t : List (Bool × Option V))
    (h : Inv c p s (l ++ ⟨p, w, pc⟩ :: r))
    (hokH : s'.higher.Ok c.cap) (hokL : s'.lower.Ok c.cap) (ht : s'.taken = s.taken ++ t)
    (hfH : (t.filter (·.1)).map (·.2) ++ s'.higher.all = s.higher.all)
    (hfL : (t.filter (!·.1)).map (·.2) ++ s'.lower.all = s.lower.all)
    (hpH : s'.postedH = s.postedH) (hpL : s'.postedL = s.postedL)
    (hlow : s'.higher.all ≠ [] → s.higher.all ≠ [] ∧ s'.lowSince + b2n (isSel2 pc') ≤ s.lowSince + b2n (isSel2 pc))
    (hidle : s'.higher.all = [] → s'.lowSince = 0)
    (hwg : s'.wg + b2n (isDead pc') = s.wg + b2n (isDead pc))
    (hop : s'.op = s.op) (hst : s'.started = s.started) (hq : s'.quit = s.quit) (hstarts : s'.starts = s.starts)
    (hstops : s'.stops = s.stops) (hstopped : s'.stopped = s.stopped)
    (hprog : s'.handled ++ (inProg pc').toList = s.handled ++ (inProg pc).toList ++ t)
    (hcalls : (s'.calls.map (·.2)).Perm (called c s'.handled ++ (past pc').toList ++ (pasts p l ++ pasts p r)))
    (hwork : isIn pc' = true → isIn pc = true ∨ c.work = true)
    (hexit : 0 < s.stopped → s'.wg ≤ 0) :
    Inv c p s' (l ++ ⟨p, w, pc'⟩ :: r) := by
  have hs := h.spawned
  have hw := h.wg
  have hp := h.prio
  have ho := h.one
  have hpe := h.perm
  have hwk := h.works
  rw [cnt_mid] at hs hw hp
  rw [cnt_mid] at hp
  rw [inProgs_mid] at ho hpe
  rw [cnt_mid] at hwk
  simp only [if_true, beq_self_eq_true, Bool.true_and] at hs hw hp ho hpe hwk
  have hperm : ∀ (a m x y : List (Bool × Option V)), (a ++ (x ++ m ++ y)).Perm (a ++ m ++ (x ++ y)) := by
    intro a m x y
    rw [List.append_assoc, List.append_assoc]
    exact List.Perm.append_left _ (List.perm_append_comm_assoc _ _ _)
  constructor
  · exact hokH
  · exact hokL
  · rw [ht, hpH, ← h.fifoH, List.filter_append, List.map_append, List.append_assoc, hfH]
  · rw [ht, hpL, ← h.fifoL, List.filter_append, List.map_append, List.append_assoc, hfL]
  · rw [inProgs_mid, ht]
    simp only [if_true]
    refine List.Perm.trans ?_ (hperm _ _ _ _).symm
    rw [hprog]
    refine (List.Perm.append_right t (hpe.trans (hperm _ _ _ _))).trans ?_
    rw [List.append_assoc, List.append_assoc (s.handled ++ _) t]
    exact List.Perm.append_left _ List.perm_append_comm
  · intro hn hl
    rw [hstarts] at hl
    have hsp : spawnedOf c.n s ≤ 1 := by
      unfold spawnedOf
      rw [hn]
      split
      · rename_i i hi
        have := (h.starting i hi).1
        omega
      · omega
    simp only [b2n, if_true] at hs
    have hl0 : inProgs p l = [] := cnt_zero_inProgs (by omega)
    have hr0 : inProgs p r = [] := cnt_zero_inProgs (by omega)
    rw [ht, ho hn hl, inProgs_mid, hl0, hr0]
    simp only [if_true, List.nil_append, List.append_nil]
    exact hprog.symm
  · rw [pasts_mid]
    simp only [if_true]
    refine hcalls.trans ?_
    rw [List.append_assoc, List.append_assoc]
    refine List.Perm.append_left _ ?_
    exact List.perm_append_comm_assoc _ _ _
  · rw [cnt_mid]
    simp only [beq_self_eq_true, Bool.true_and]
    intro hne
    by_cases hpc : isIn pc' = true
    · rcases hwork hpc with hq | hq
      · apply hwk
        simp [hq, b2n]
      · exact hq
    · apply hwk
      simp [hpc, b2n] at hne ⊢
      omega
  · rw [cnt_mid]; simp only [beq_self_eq_true, Bool.true_and]; rw [hs]; simp [spawnedOf, hop, hstarts]
  · rw [cnt_mid]; simp only [beq_self_eq_true, Bool.true_and]; push_cast at hw ⊢; omega
  · rw [hop, hst]; exact h.starting
  · rw [hstarts, hstops, hst]; exact h.flag
  · rw [hq, hstops]; exact h.closed
  · rw [hstops, hstopped, hop]; exact h.stopping
  · rw [cnt_mid, cnt_mid]
    simp only [beq_self_eq_true, Bool.true_and]
    intro hne
    obtain ⟨h1, h2⟩ := hlow hne
    have := hp h1
    omega
  · exact hidle
  · rw [hstopped]; exact hexit

theorem perm_shift {A : Type} (a b : List A) (v : A) : (a ++ b ++ [v]).Perm (a ++ [v] ++ b) := by
  rw [List.append_assoc, List.append_assoc]
  exact List.Perm.append_left _ List.perm_append_comm

theorem called_snoc (c : Conf V) (l : List (Bool × Option V)) (h : Bool) (v : Option V) :
    called c (l ++ [(h, v)]) = called c l ++ (if c.work then v.toList else []) := by
  unfold called
  split
  · cases v <;> simp
  · simp

/-- A worker of a pool that has been started at most once has something left to wait for. -/
theorem wg_pos {c : Conf V} {p w : Nat} {s : PState V} {l r : List (G V)} {pc : Pc V} (h : Inv c p s (l ++ ⟨p, w, pc⟩ :: r))
    (hd : isDead pc = false) (hs : s.starts ≤ 1) : 0 < s.wg := by
  have h1 := h.spawned
  have h2 := h.wg
  rw [cnt_mid] at h1 h2
  simp only [beq_self_eq_true, Bool.true_and, hd, b2n] at h1 h2
  have hsp : spawnedOf c.n s ≤ c.n := by
    unfold spawnedOf
    split
    · rename_i i hi
      have := (h.starting i hi).1
      have : s.starts - 1 = 0 := by omega
      rw [this]; omega
    · calc s.starts * c.n ≤ 1 * c.n := Nat.mul_le_mul_right _ hs
        _ = c.n := Nat.one_mul _
  have h3 : cnt p isDead l ≤ cnt p (fun _ => true) l := cnt_le fun _ _ => rfl
  have h4 : cnt p isDead r ≤ cnt p (fun _ => true) r := cnt_le fun _ _ => rfl
  simp at h1 h2
  omega

theorem inv_work {c : Conf V} {p w : Nat} {s : PState V} {lk : Bool} {ks : Bytes → Option Nat} {l r : List (G V)} {pc pc' : Pc V}
    {v' : View V} {b : Bool} (hw : Work c w ⟨s, lk, ks⟩ pc v' pc' b) (h : Inv c p s (l ++ ⟨p, w, pc⟩ :: r)) :
    Inv c p v'.pool (l ++ ⟨p, w, pc'⟩ :: r) ∧ (b = true → 2 ≤ v'.pool.starts) := by
  have hcl := h.calls
  rw [pasts_mid] at hcl
  simp only [if_true] at hcl
  have hperm : ∀ (a m x y : List V), (a ++ (x ++ m ++ y)).Perm (a ++ m ++ (x ++ y)) := by
    intro a m x y
    rw [List.append_assoc, List.append_assoc]
    exact List.Perm.append_left _ (List.perm_append_comm_assoc _ _ _)
  have hcl := hcl.trans (hperm _ _ _ _)
  cases hw with
  | quit1 hq =>
    exact ⟨inv_move [] h h.okH h.okL (by simp) (by simp) (by simp) rfl rfl (fun hh => ⟨hh, by simp [isSel2, b2n]⟩) h.idle
      (by simp [isDead]) rfl rfl rfl rfl rfl rfl (by simp [inProg]) hcl (by simp [isIn]) h.exits, by simp⟩
  | quit2 hq =>
    exact ⟨inv_move [] h h.okH h.okL (by simp) (by simp) (by simp) rfl rfl (fun hh => ⟨hh, by simp [isSel2, b2n]⟩) h.idle
      (by simp [isDead]) rfl rfl rfl rfl rfl rfl (by simp [inProg]) hcl (by simp [isIn]) h.exits, by simp⟩
  | default hq hn =>
    refine ⟨inv_move [] h h.okH h.okL (by simp) (by simp) (by simp) rfl rfl (fun hh => absurd (recv_none.1 hn) hh) h.idle
      (by simp [isDead]) rfl rfl rfl rfl rfl rfl (by simp [inProg]) hcl (by simp [isIn]) h.exits, by simp⟩
  | high1 hv => 
    rename_i v ch _
    refine ⟨inv_move [(true, v)] h (recv_ok hv h.okH) h.okL rfl (by simp [PState.tookH, recv_all hv]) (by simp [PState.tookH]) rfl rfl
      (fun hh => ⟨by simp [recv_all hv], ?_⟩) (fun hh => ?_)
      (by simp [isDead, PState.tookH]) rfl rfl rfl rfl rfl rfl (by simp [inProg, PState.tookH]) hcl (by simp [isIn]) h.exits, by simp⟩
    · simp only [PState.tookH, isSel2, b2n]
      split <;> simp
    · have : ch.recv = none := recv_none.2 hh
      simp [PState.tookH, this]
  | high2 hv => 
    rename_i v ch _
    refine ⟨inv_move [(true, v)] h (recv_ok hv h.okH) h.okL rfl (by simp [PState.tookH, recv_all hv]) (by simp [PState.tookH]) rfl rfl
      (fun hh => ⟨by simp [recv_all hv], ?_⟩) (fun hh => ?_)
      (by simp [isDead, PState.tookH]) rfl rfl rfl rfl rfl rfl (by simp [inProg, PState.tookH]) hcl (by simp [isIn]) h.exits, by simp⟩
    · simp only [PState.tookH, isSel2, b2n]
      split <;> simp
    · have : ch.recv = none := recv_none.2 hh
      simp [PState.tookH, this]
  | low2 hv =>
    rename_i v ch _
    refine ⟨inv_move [(false, v)] h h.okH (recv_ok hv h.okL) rfl (by simp [PState.tookL]) (by simp [PState.tookL, recv_all hv]) rfl rfl
      (fun hh => ⟨hh, ?_⟩) (fun hh => ?_)
      (by simp [isDead, PState.tookL]) rfl rfl rfl rfl rfl rfl (by simp [inProg, PState.tookL]) hcl (by simp [isIn]) h.exits, by simp⟩
    · simp only [PState.tookL, isSel2, b2n]
      split <;> simp
    · have : s.higher.recv = none := recv_none.2 hh
      simp [PState.tookL, this]
  | skip hv =>
    rename_i hi v
    refine ⟨inv_move [] h h.okH h.okL (by simp [PState.finish]) (by simp [PState.finish]) (by simp [PState.finish]) rfl rfl
      (fun hh => ⟨hh, by simp [isSel2, b2n, PState.finish]⟩) h.idle
      (by simp [isDead, PState.finish]) rfl rfl rfl rfl rfl rfl (by simp [inProg, PState.finish]) ?_ (by simp [isIn]) h.exits, by simp⟩
    simp only [PState.finish, called_snoc]
    refine hcl.trans ?_
    rcases hv with rfl | hv
    · simp [past]
    · simp [past, hv]
  | plain hwk hk =>
    rename_i hi v
    refine ⟨inv_move [] h h.okH h.okL (by simp [PState.call]) (by simp [PState.call]) (by simp [PState.call]) rfl rfl
      (fun hh => ⟨hh, by simp [isSel2, b2n, PState.call]⟩) h.idle
      (by simp [isDead, PState.call]) rfl rfl rfl rfl rfl rfl (by simp [inProg, PState.call]) ?_ (by simp [hwk]) h.exits, by simp⟩
    simp only [PState.call, List.map_append, List.map_cons, List.map_nil, past, Option.toList] at hcl ⊢
    refine (List.Perm.append_right _ hcl).trans ?_
    rw [List.append_nil]
    exact perm_shift _ _ _
  | keyed hwk hk =>
    exact ⟨inv_move [] h h.okH h.okL (by simp) (by simp) (by simp) rfl rfl (fun hh => ⟨hh, by simp [isSel2, b2n]⟩) h.idle
      (by simp [isDead]) rfl rfl rfl rfl rfl rfl (by simp [inProg]) hcl (fun _ => Or.inr hwk) h.exits, by simp⟩
  | incLock =>
    exact ⟨inv_move [] h h.okH h.okL (by simp) (by simp) (by simp) rfl rfl (fun hh => ⟨hh, by simp [isSel2, b2n]⟩) h.idle
      (by simp [isDead]) rfl rfl rfl rfl rfl rfl (by simp [inProg]) hcl (by simp [isIn]) h.exits, by simp⟩
  | incRead =>
    exact ⟨inv_move [] h h.okH h.okL (by simp) (by simp) (by simp) rfl rfl (fun hh => ⟨hh, by simp [isSel2, b2n]⟩) h.idle
      (by simp [isDead]) rfl rfl rfl rfl rfl rfl (by simp [inProg]) hcl (by simp [isIn]) h.exits, by simp⟩
  | incWrite =>
    rename_i hi v o
    refine ⟨inv_move [] h h.okH h.okL (by simp [PState.call]) (by simp [PState.call]) (by simp [PState.call]) rfl rfl
      (fun hh => ⟨hh, by simp [isSel2, b2n, PState.call]⟩) h.idle
      (by simp [isDead, PState.call]) rfl rfl rfl rfl rfl rfl (by simp [inProg, PState.call]) ?_ (by simp [isIn]) h.exits, by simp⟩
    simp only [PState.call, List.map_append, List.map_cons, List.map_nil, past, Option.toList] at hcl ⊢
    refine (List.Perm.append_right _ hcl).trans ?_
    rw [List.append_nil]
    exact perm_shift _ _ _
  | doneKeyed hk =>
    exact ⟨inv_move [] h h.okH h.okL (by simp) (by simp) (by simp) rfl rfl (fun hh => ⟨hh, by simp [isSel2, b2n]⟩) h.idle
      (by simp [isDead]) rfl rfl rfl rfl rfl rfl (by simp [inProg]) hcl (by simp [isIn]) h.exits, by simp⟩
  | donePlain hk =>
    rename_i hi v
    have hwk : c.work = true := h.works (by simp [cnt_mid, isIn, b2n])
    refine ⟨inv_move [] h h.okH h.okL (by simp [PState.finish]) (by simp [PState.finish]) (by simp [PState.finish]) rfl rfl
      (fun hh => ⟨hh, by simp [isSel2, b2n, PState.finish]⟩) h.idle
      (by simp [isDead, PState.finish]) rfl rfl rfl rfl rfl rfl (by simp [inProg, PState.finish]) ?_ (by simp [isIn]) h.exits, by simp⟩
    simp only [PState.finish, called_snoc, hwk]
    refine hcl.trans ?_
    simp [past]
  | decLock =>
    exact ⟨inv_move [] h h.okH h.okL (by simp) (by simp) (by simp) rfl rfl (fun hh => ⟨hh, by simp [isSel2, b2n]⟩) h.idle
      (by simp [isDead]) rfl rfl rfl rfl rfl rfl (by simp [inProg]) hcl (by simp [isIn]) h.exits, by simp⟩
  | decRead =>
    exact ⟨inv_move [] h h.okH h.okL (by simp) (by simp) (by simp) rfl rfl (fun hh => ⟨hh, by simp [isSel2, b2n]⟩) h.idle
      (by simp [isDead]) rfl rfl rfl rfl rfl rfl (by simp [inProg]) hcl (by simp [isIn]) h.exits, by simp⟩
  | decWrite =>
    rename_i hi v o
    have hwk : c.work = true := h.works (by simp [cnt_mid, isIn, b2n])
    refine ⟨inv_move [] h h.okH h.okL (by simp [PState.finish]) (by simp [PState.finish]) (by simp [PState.finish]) rfl rfl
      (fun hh => ⟨hh, by simp [isSel2, b2n, PState.finish]⟩) h.idle
      (by simp [isDead, PState.finish]) rfl rfl rfl rfl rfl rfl (by simp [inProg, PState.finish]) ?_ (by simp [isIn]) h.exits, by simp⟩
    simp only [PState.finish, called_snoc, hwk]
    refine hcl.trans ?_
    simp [past]
  | wgDone =>
    refine ⟨inv_move [] h h.okH h.okL (by simp) (by simp) (by simp) rfl rfl (fun hh => ⟨hh, by simp [isSel2, b2n]⟩) h.idle
      (by simp [isDead, b2n]) rfl rfl rfl rfl rfl rfl (by simp [inProg]) hcl (by simp [isIn]) ?_, ?_⟩
    · intro h1
      have := h.exits h1
      show s.wg - 1 ≤ 0
      omega
    · intro hb
      show 2 ≤ s.starts
      by_contra hc
      have := wg_pos h rfl (by omega)
      simp at hb
      omega

/-- The invariant of all pools; a panic needs a second `Start` of the same pool after a `Stop`. -/
structure AllInv (cf : Nat → Conf V) (s : Sys V) : Prop where
  inv : ∀ p, Inv (cf p) p (s.pools p) s.gs
  panic : s.panicked = true → ∃ p, 2 ≤ (s.pools p).starts
  once : s.panicked = false → ∀ p, (s.pools p).stops ≤ 1

theorem upd_self {A B : Type} [DecidableEq A] (f : A → B) (a : A) (b : B) : upd f a b a = b := by simp [upd]
theorem upd_other {A B : Type} [DecidableEq A] (f : A → B) {a x : A} (b : B) (h : x ≠ a) : upd f a b x = f x := by simp [upd, h]

theorem allInv_step {cf : Nat → Conf V} {s s' : Sys V} (hs : Step cf s s') (h : AllInv cf s) : AllInv cf s' := by
  cases hs with
  | client p hc =>
    have hp := inv_client hc (h.inv p)
    refine ⟨fun q => ?_, fun hb => ⟨p, ?_⟩, fun hb q => ?_⟩
    · by_cases hq : q = p
      · subst hq
        simp only [upd_self]
        exact hp.1
      · simp only [upd_other _ _ hq]
        exact inv_spawn_other (Ne.symm hq) (h.inv q)
    · simp only [upd_self]
      exact hp.2 hb
    · have ho := h.once rfl q
      by_cases hq : q = p
      · subst hq
        simp only [upd_self]
        have hcl := (h.inv q).closed
        simp only at hcl ho hb
        cases hc <;> try exact ho
        rw [hb] at hcl
        simp at hcl
        simp [hcl]
      · simp only [upd_other _ _ hq]
        exact ho
  | work p w l r hw =>
    have hp := inv_work hw (h.inv p)
    refine ⟨fun q => ?_, fun hb => ⟨p, ?_⟩, fun hb q => ?_⟩
    · by_cases hq : q = p
      · subst hq
        simp only [upd_self]
        exact hp.1
      · simp only [upd_other _ _ hq]
        exact inv_other (Ne.symm hq) (h.inv q)
    · simp only [upd_self]
      exact hp.2 hb
    · have ho := h.once rfl q
      by_cases hq : q = p
      · subst hq
        simp only [upd_self]
        cases hw <;> exact ho
      · simp only [upd_other _ _ hq]
        exact ho

theorem allInv {cf : Nat → Conf V} {s : Sys V} (h : Reachable cf s) : AllInv cf s := by
  unfold Reachable at h
  induction h with
  | refl => exact ⟨fun p => inv_initial _ _, by simp [initial], by simp [initial, newPool]⟩
  | tail _ hs ih => exact allInv_step hs ih

/-! ## C59: events -/

/-- Every posted event is handled, being handled or waiting, with the right number of occurrences: none is lost, none handled twice. -/
theorem C59_conservation {cf : Nat → Conf V} {s : Sys V} (h : Reachable cf s) (p : Nat) :
    ((s.pools p).postedH ++ (s.pools p).postedL).Perm
      ((s.pools p).handled.map (·.2) ++ (inProgs p s.gs).map (·.2) ++ (s.pools p).higher.all ++ (s.pools p).lower.all) := by
  have hi := (allInv h).inv p
  have h1 := hi.perm.map (·.2)
  rw [List.map_append] at h1
  have h2 : ((s.pools p).taken.map (·.2)).Perm
      (((s.pools p).taken.filter (·.1)).map (·.2) ++ ((s.pools p).taken.filter (!·.1)).map (·.2)) := by
    rw [← List.map_append]
    exact (List.filter_append_perm _ _).symm.map _
  rw [← hi.fifoH, ← hi.fifoL]
  refine List.Perm.trans ?_ (List.Perm.append_right _ (List.Perm.append_right _ (h2.symm.trans h1)))
  simp only [List.append_assoc]
  refine List.Perm.append_left _ ?_
  rw [← List.append_assoc, ← List.append_assoc]
  exact List.Perm.append_right _ List.perm_append_comm

/-- Either queue is first in, first out: what has been taken from it, followed by what waits in it, is what was posted to it. -/
theorem C59_fifo {cf : Nat → Conf V} {s : Sys V} (h : Reachable cf s) (p : Nat) :
    ((s.pools p).taken.filter (·.1)).map (·.2) ++ (s.pools p).higher.all = (s.pools p).postedH ∧
    ((s.pools p).taken.filter (!·.1)).map (·.2) ++ (s.pools p).lower.all = (s.pools p).postedL :=
  ⟨((allInv h).inv p).fifoH, ((allInv h).inv p).fifoL⟩

/-- No queue holds more than its capacity, and posting blocks only while it is full. -/
theorem C59_capacity {cf : Nat → Conf V} {s : Sys V} (h : Reachable cf s) (p : Nat) :
    (s.pools p).higher.buf.length ≤ (cf p).cap ∧ (s.pools p).lower.buf.length ≤ (cf p).cap ∧
    ((s.pools p).higher.sendq ≠ [] → (s.pools p).higher.buf.length = (cf p).cap) ∧
    ((s.pools p).lower.sendq ≠ [] → (s.pools p).lower.buf.length = (cf p).cap) :=
  have hi := (allInv h).inv p
  ⟨hi.okH.1, hi.okL.1, hi.okH.2, hi.okL.2⟩

/-- With one worker, events of high priority are handled in the order in which they were posted. -/
theorem C59_order {cf : Nat → Conf V} {s : Sys V} (h : Reachable cf s) (p : Nat) (hn : (cf p).n = 1)
    (hs : (s.pools p).starts ≤ 1) :
    ((s.pools p).handled.filter (·.1)).map (·.2) ++ ((inProgs p s.gs).filter (·.1)).map (·.2) ++ (s.pools p).higher.all =
      (s.pools p).postedH := by
  have hi := (allInv h).inv p
  rw [← hi.fifoH, hi.one hn hs, List.filter_append, List.map_append]

/-- The calls of `workFunc`: one for every event that is not nil and whose handling has got that far. -/
theorem C59_calls {cf : Nat → Conf V} {s : Sys V} (h : Reachable cf s) (p : Nat) (hw : (cf p).work = true) :
    ((s.pools p).calls.map (·.2)).Perm ((s.pools p).handled.filterMap (·.2) ++ pasts p s.gs) := by
  have := ((allInv h).inv p).calls
  rw [called, if_pos hw] at this
  exact this

theorem pasts_sublist (p : Nat) (gs : List (G V)) : (pasts p gs).Sublist ((inProgs p gs).filterMap (·.2)) := by
  induction gs with
  | nil => simp [pasts, inProgs]
  | cons g gs ih =>
    simp only [pasts, inProgs, List.filterMap_cons] at ih ⊢
    by_cases hp : g.pool = p
    · simp only [hp, if_true] at ih ⊢
      cases hpc : g.pc <;> simp only [past, inProg, List.filterMap_cons] <;>
        first
        | exact ih.cons_cons _
        | exact ih.cons _
        | exact ih
        | (split <;> first | exact ih | exact ih.cons _)
    · simp only [hp, if_false] at ih ⊢
      exact ih

/-- If no event is posted twice, `workFunc` is called at most once for every event, by one worker. -/
theorem C59_once {cf : Nat → Conf V} {s : Sys V} (h : Reachable cf s) (p : Nat)
    (hd : (((s.pools p).postedH ++ (s.pools p).postedL).filterMap id).Nodup) : ((s.pools p).calls.map (·.2)).Nodup := by
  have h1 := ((allInv h).inv p).calls
  have h2 := (C59_conservation h p).filterMap id
  have h3 := h2.nodup_iff.1 hd
  simp only [List.append_assoc] at h3
  rw [List.filterMap_append, List.filterMap_append] at h3
  have e : ∀ l : List (Bool × Option V), (l.map (·.2)).filterMap id = l.filterMap (·.2) := by
    intro l; rw [List.filterMap_map]; rfl
  rw [e, e] at h3
  rw [h1.nodup_iff]
  have hsub : (called (cf p) (s.pools p).handled ++ pasts p s.gs).Sublist
      ((s.pools p).handled.filterMap (·.2) ++ ((inProgs p s.gs).filterMap (·.2) ++ ((s.pools p).higher.all ++ (s.pools p).lower.all).filterMap id)) := by
    refine List.Sublist.append ?_ ?_
    · unfold called
      split
      · exact List.Sublist.refl _
      · exact List.nil_sublist _
    · exact (pasts_sublist p s.gs).trans (List.sublist_append_left _ _)
  exact hsub.nodup h3

/-- While events of high priority wait, at most as many events of low priority are taken as there are worker goroutines. -/
theorem C59_priority {cf : Nat → Conf V} {s : Sys V} (h : Reachable cf s) (p : Nat) (hs : (s.pools p).starts ≤ 1)
    (hne : (s.pools p).higher.all ≠ []) : (s.pools p).lowSince ≤ (cf p).n := by
  have hi := (allInv h).inv p
  have h1 := hi.prio hne
  have h2 := hi.spawned
  have hsp : spawnedOf (cf p).n (s.pools p) ≤ (cf p).n := by
    unfold spawnedOf
    split
    · rename_i i hi'
      have := (hi.starting i hi').1
      have : (s.pools p).starts - 1 = 0 := by omega
      rw [this]; omega
    · calc (s.pools p).starts * (cf p).n ≤ 1 * (cf p).n := Nat.mul_le_mul_right _ hs
        _ = (cf p).n := Nat.one_mul _
  omega

/-! ## C61: starting and stopping -/

/-- No execution panics in which no pool is started again after it was stopped. -/
theorem C61_noPanic_partial {cf : Nat → Conf V} {s : Sys V} (h : Reachable cf s) (hs : ∀ p, (s.pools p).starts ≤ 1) :
    s.panicked = false := by
  by_contra hc
  obtain ⟨p, hp⟩ := (allInv h).panic (by simpa using hc)
  have := hs p
  omega

/-- When `Stop` has returned and the pool was not started again, no worker of it runs. -/
theorem C61_stopped {cf : Nat → Conf V} {s : Sys V} (h : Reachable cf s) (hp : s.panicked = false) (p : Nat)
    (h1 : 0 < (s.pools p).stopped) (h2 : (s.pools p).starts = (s.pools p).stopped) : ∀ g ∈ s.gs, ¬ g.alive p := by
  intro g hg ha
  obtain ⟨l, r, he⟩ := List.append_of_mem hg
  obtain ⟨q, w, pc⟩ := g
  obtain ⟨hqp, ha⟩ := ha
  simp only at hqp
  subst hqp
  have hi := (allInv h).inv q
  have ho := (allInv h).once hp q
  have hs := hi.stopping
  rw [he] at hi
  have hd : isDead pc = false := by cases pc <;> simp_all [isDead]
  have := wg_pos hi hd (by omega)
  have := hi.exits h1
  omega

/-- A pool that was started again cannot be stopped: the second effective `Stop` panics. -/
theorem C61_secondStop {cf : Nat → Conf V} {s : Sys V} (h : Reachable cf s) (p : Nat) (hst : (s.pools p).started = true)
    (hs : 2 ≤ (s.pools p).starts) {s' : PState V} {ws : List Nat} {b : Bool} (hc : Client (cf p) (s.pools p) s' ws b)
    (h' : s'.started = false) : b = true := by
  have hi := (allInv h).inv p
  have hf := hi.flag
  rw [hst] at hf
  simp [b2n] at hf
  have hq := hi.closed.2 (by omega)
  cases hc <;> simp_all

/-- Neither can it run: once `Stop` has returned, a worker that returns panics. -/
theorem C61_restartedWorker {cf : Nat → Conf V} {s : Sys V} (h : Reachable cf s) (p : Nat) (hs : 0 < (s.pools p).stopped)
    {w : Nat} {lk : Bool} {ks : Bytes → Option Nat} {v' : View V} {b : Bool}
    (hw : Work (cf p) w ⟨s.pools p, lk, ks⟩ .ret v' .dead b) : b = true := by
  have := ((allInv h).inv p).exits hs
  cases hw
  simp
  omega

/-! ## C60: key counts -/

/-- `workFunc` has been entered for an event of key `k`, and the key is still counted. -/
def counted (c : Conf V) (k : Bytes) (pc : Pc V) : Bool :=
  match past pc with
  | some v => k != [] && c.key v == k
  | none => false

/-- Number of goroutines, of all pools, whose event counts for `k`. -/
def countOf (cf : Nat → Conf V) (k : Bytes) (gs : List (G V)) : Nat := gs.countP fun g => counted (cf g.pool) k g.pc

/-- Holds `routinePoolKeyCountLock`. -/
def holds : Pc V → Bool
  | .inc2 .. | .inc3 .. | .dec2 .. | .dec3 .. => true
  | _ => false

/-- The event whose key is being counted up or down. -/
def keyOf : Pc V → Option V
  | .inc1 _ v | .inc2 _ v | .inc3 _ v _ | .dec1 _ v | .dec2 _ v | .dec3 _ v _ => some v
  | _ => none

/-- The value looked up before the write. -/
def lookedUp : Pc V → Option (V × Option Nat)
  | .inc3 _ v o | .dec3 _ v o => some (v, o)
  | _ => none

structure KInv (cf : Nat → Conf V) (s : Sys V) : Prop where
  keyed : ∀ g ∈ s.gs, ∀ v, keyOf g.pc = some v → (cf g.pool).key v ≠ []
  hold : s.gs.countP (fun g => holds g.pc) = b2n s.lock
  read : ∀ g ∈ s.gs, ∀ v o, lookedUp g.pc = some (v, o) → o = s.keys ((cf g.pool).key v)
  count : ∀ k, s.keys k = if countOf cf k s.gs = 0 then none else some (countOf cf k s.gs)

theorem kinv_move {cf : Nat → Conf V} {ps : Nat → PState V} {l r : List (G V)} {lk lk' : Bool} {ks ks' : Bytes → Option Nat}
    {p w : Nat} {pc pc' : Pc V} (ps' : Nat → PState V) (b : Bool) (h : KInv cf ⟨ps, l ++ ⟨p, w, pc⟩ :: r, lk, ks, false⟩)
    (hk : ∀ v, keyOf pc' = some v → (cf p).key v ≠ [])
    (hh : b2n (holds pc') + b2n lk = b2n (holds pc) + b2n lk')
    (hr : ∀ v o, lookedUp pc' = some (v, o) → o = ks' ((cf p).key v))
    (hw : ks' = ks ∨ holds pc = true)
    (hc : ∀ k n, ks k = (if n + b2n (counted (cf p) k pc) = 0 then none else some (n + b2n (counted (cf p) k pc))) →
      ks' k = if n + b2n (counted (cf p) k pc') = 0 then none else some (n + b2n (counted (cf p) k pc'))) :
    KInv cf ⟨ps', l ++ ⟨p, w, pc'⟩ :: r, lk', ks', b⟩ := by
  have h1 := h.hold
  simp only [List.countP_append, List.countP_cons] at h1
  refine ⟨?_, ?_, ?_, ?_⟩
  · intro g hg v hv
    simp only [List.mem_append, List.mem_cons] at hg
    rcases hg with hg | rfl | hg
    · exact h.keyed g (by simp [hg]) v hv
    · exact hk v hv
    · exact h.keyed g (by simp [hg]) v hv
  · simp only [List.countP_append, List.countP_cons]
    simp only [b2n] at *
    omega
  · intro g hg v o hv
    have key : ∀ g, g ∈ l ∨ g ∈ r → lookedUp g.pc = some (v, o) → o = ks' ((cf g.pool).key v) := by
      intro g hg hv
      rcases hw with rfl | hw
      · exact h.read g (by simp; tauto) v o hv
      · exfalso
        have hlk : b2n lk ≤ 1 := by cases lk <;> simp [b2n]
        simp only [hw, if_true] at h1
        have hg' : holds g.pc = true := by
          cases hpc : g.pc <;> simp [hpc, lookedUp, holds] at hv ⊢
        rcases hg with hg | hg
        · have : 0 < l.countP (fun g => holds g.pc) := List.countP_pos_iff.2 ⟨g, hg, hg'⟩
          omega
        · have : 0 < r.countP (fun g => holds g.pc) := List.countP_pos_iff.2 ⟨g, hg, hg'⟩
          omega
    simp only [List.mem_append, List.mem_cons] at hg
    rcases hg with hg | rfl | hg
    · exact key g (.inl hg) hv
    · exact hr v o hv
    · exact key g (.inr hg) hv
  · intro k
    have h2 := h.count k
    have e : ∀ pc, countOf cf k (l ++ ⟨p, w, pc⟩ :: r) = countOf cf k l + countOf cf k r + b2n (counted (cf p) k pc) := by
      intro pc
      simp only [countOf, List.countP_append, List.countP_cons, b2n]
      omega
    simp only [e] at h2 ⊢
    exact hc k _ h2

theorem counted_key {c : Conf V} {pc : Pc V} {v : V} (hp : past pc = some v) (hk : c.key v ≠ []) :
    b2n (counted c (c.key v) pc) = 1 := by
  simp [counted, hp, hk, b2n]

theorem counted_past {c : Conf V} {pc : Pc V} {v : V} {k : Bytes} (hp : past pc = some v) (hk : c.key v ≠ k) :
    b2n (counted c k pc) = 0 := by
  simp [counted, hp, hk, b2n]

theorem counted_none {c : Conf V} {pc : Pc V} {k : Bytes} (hp : past pc = none) : b2n (counted c k pc) = 0 := by
  simp [counted, hp, b2n]

theorem counted_plain {c : Conf V} {pc : Pc V} {v : V} {k : Bytes} (hp : past pc = some v) (hk : c.key v = []) :
    b2n (counted c k pc) = 0 := by
  simp only [counted, hp, hk, b2n]
  cases k <;> simp

theorem kinv_work {cf : Nat → Conf V} {ps : Nat → PState V} {l r : List (G V)} {lk : Bool} {ks : Bytes → Option Nat}
    {p w : Nat} {pc pc' : Pc V} {v' : View V} {b : Bool} (ps' : Nat → PState V)
    (hw : Work (cf p) w ⟨ps p, lk, ks⟩ pc v' pc' b) (h : KInv cf ⟨ps, l ++ ⟨p, w, pc⟩ :: r, lk, ks, false⟩) :
    KInv cf ⟨ps', l ++ ⟨p, w, pc'⟩ :: r, v'.lock, v'.keys, b⟩ := by
  have hk := h.keyed ⟨p, w, pc⟩ (by simp)
  have hr := h.read ⟨p, w, pc⟩ (by simp)
  simp only at hk hr
  have hl := h.hold
  simp only [List.countP_append, List.countP_cons] at hl
  have hlk : b2n lk = if lk = true then 1 else 0 := rfl
  cases hw
  case incWrite hi v o =>
    have ho := hr v o rfl
    have hkv := hk v rfl
    refine kinv_move ps' _ h (by simp [keyOf]) ?_ (by simp [lookedUp]) (.inr rfl) ?_
    · simp only [holds, if_true] at hl
      simp only [holds, b2n] at hl ⊢
      split at hl <;> simp_all
    · intro k n hn
      by_cases hkk : (cf p).key v = k
      · subst hkk
        rw [counted_none rfl] at hn
        rw [counted_key (v := v) rfl hkv]
        subst ho
        rw [hn]
        by_cases hn0 : n = 0
        · simp [hn0, incWrite, upd]
        · simp [hn0, incWrite, upd]
      · have : incWrite ks ((cf p).key v) o k = ks k := by
          cases o <;> simp [incWrite, upd, Ne.symm hkk]
        rw [counted_none rfl] at hn
        rw [counted_past (v := v) rfl hkk]
        simp only [this, hn]
  case decWrite hi v o =>
    have ho := hr v o rfl
    have hkv := hk v rfl
    refine kinv_move ps' _ h (by simp [keyOf]) ?_ (by simp [lookedUp]) (.inr rfl) ?_
    · simp only [holds, if_true] at hl
      simp only [holds, b2n] at hl ⊢
      split at hl <;> simp_all
    · intro k n hn
      by_cases hkk : (cf p).key v = k
      · subst hkk
        rw [counted_key (v := v) rfl hkv] at hn
        rw [counted_none rfl]
        subst ho
        rw [hn]
        by_cases hn0 : n = 0
        · simp [hn0, decWrite, upd]
        · simp [hn0, decWrite, upd]
      · have : decWrite ks ((cf p).key v) o k = ks k := by
          cases o with
          | none => rfl
          | some c =>
            simp only [decWrite]
            split <;> simp [upd, Ne.symm hkk]
        rw [counted_past (v := v) rfl hkk] at hn
        rw [counted_none rfl]
        simp only [this, hn]
  case plain hi v hwk hkv =>
    refine kinv_move ps' _ h (by simp [keyOf]) rfl (by simp [lookedUp]) (.inl rfl) ?_
    intro k n hn
    rw [counted_none rfl] at hn
    rw [counted_plain (v := v) rfl hkv]
    exact hn
  case donePlain hi v hkv =>
    refine kinv_move ps' _ h (by simp [keyOf]) rfl (by simp [lookedUp]) (.inl rfl) ?_
    intro k n hn
    rw [counted_plain (v := v) rfl hkv] at hn
    rw [counted_none rfl]
    exact hn
  all_goals
    refine kinv_move ps' _ h ?_ ?_ ?_ (.inl rfl) ?_
  all_goals
    first
    | (simp [keyOf]; done)
    | (simp [lookedUp]; done)
    | (simp [holds, b2n]; done)
    | (intro k n hn; exact hn)
    | (intro v hv; simp [keyOf] at hv; subst hv; first | assumption | exact hk _ rfl)

theorem kinv_client {cf : Nat → Conf V} {ps ps' : Nat → PState V} {gs : List (G V)} {lk : Bool} {ks : Bytes → Option Nat}
    {p : Nat} {ws : List Nat} {b : Bool} (h : KInv cf ⟨ps, gs, lk, ks, false⟩) :
    KInv cf ⟨ps', gs ++ ws.map (fun i => ⟨p, i, .sel1⟩), lk, ks, b⟩ := by
  have e : ∀ g : G V, g ∈ gs ++ ws.map (fun i => (⟨p, i, .sel1⟩ : G V)) → g ∈ gs ∨ g.pc = .sel1 := by
    intro g hg
    simp at hg
    rcases hg with hg | ⟨i, _, rfl⟩
    · exact .inl hg
    · exact .inr rfl
  refine ⟨?_, ?_, ?_, ?_⟩
  · intro g hg v hv
    rcases e g hg with hg | hg
    · exact h.keyed g hg v hv
    · rw [hg] at hv; simp [keyOf] at hv
  · have e0 : (ws.map (fun i => (⟨p, i, .sel1⟩ : G V))).countP (fun g => holds g.pc) = 0 := by
      rw [List.countP_eq_zero]
      intro g hg
      simp at hg
      obtain ⟨i, _, rfl⟩ := hg
      simp [holds]
    show List.countP _ (gs ++ _) = _
    rw [List.countP_append, e0]
    exact h.hold
  · intro g hg v o hv
    rcases e g hg with hg | hg
    · exact h.read g hg v o hv
    · rw [hg] at hv; simp [lookedUp] at hv
  · intro k
    have e0 : countOf cf k (ws.map (fun i => (⟨p, i, .sel1⟩ : G V))) = 0 := by
      unfold countOf
      rw [List.countP_eq_zero]
      intro g hg
      simp at hg
      obtain ⟨i, _, rfl⟩ := hg
      simp [counted, past]
    have e1 : countOf cf k (gs ++ ws.map (fun i => (⟨p, i, .sel1⟩ : G V))) = countOf cf k gs := by
      unfold countOf at e0 ⊢
      rw [List.countP_append, e0]; rfl
    rw [e1]
    exact h.count k

theorem kinv {cf : Nat → Conf V} {s : Sys V} (h : Reachable cf s) : KInv cf s := by
  unfold Reachable at h
  induction h with
  | refl => exact ⟨by simp [initial], by simp [initial, b2n], by simp [initial], by simp [initial, countOf]⟩
  | tail _ hs ih =>
    cases hs with
    | client p hc => exact kinv_client ih
    | work p w l r hw => exact kinv_work _ hw ih

/-- The recorded count of a key is the number of workers, of all pools, that are handling an event with that key (from the end of
`incKeyCount` to the end of `decKeyCount`); without one the key is absent. -/
theorem C60_count {cf : Nat → Conf V} {s : Sys V} (h : Reachable cf s) (k : Bytes) :
    s.keys k = if countOf cf k s.gs = 0 then none else some (countOf cf k s.gs) :=
  (kinv h).count k

/-- Number of goroutines that are inside `workFunc` with an event of key `k`. -/
def runningWith (cf : Nat → Conf V) (k : Bytes) (gs : List (G V)) : Nat :=
  gs.countP fun g => match running g.pc with | some v => (cf g.pool).key v == k | none => false

/-- While no worker is inside the bookkeeping, the recorded count is the number of workers inside `workFunc` with that key. -/
theorem C60_running {cf : Nat → Conf V} {s : Sys V} (h : Reachable cf s) {k : Bytes} (hk : k ≠ [])
    (hq : ∀ g ∈ s.gs, keyOf g.pc = none) :
    s.keys k = if runningWith cf k s.gs = 0 then none else some (runningWith cf k s.gs) := by
  rw [C60_count h k]
  have : countOf cf k s.gs = runningWith cf k s.gs := by
    unfold countOf runningWith
    apply List.countP_congr
    intro g hg
    have := hq g hg
    cases hpc : g.pc <;> simp [hpc, keyOf, counted, past, running, hk] at this ⊢
  rw [this]

/-- A worker inside `workFunc` is always counted. -/
theorem C60_atLeast {cf : Nat → Conf V} {s : Sys V} (h : Reachable cf s) {k : Bytes} (hk : k ≠ []) :
    runningWith cf k s.gs ≤ (s.keys k).getD 0 := by
  rw [C60_count h k]
  have : runningWith cf k s.gs ≤ countOf cf k s.gs := by
    unfold countOf runningWith
    apply List.countP_mono_left
    intro g _ hg
    cases hpc : g.pc <;> simp [hpc, counted, past, running, hk] at hg ⊢
    exact hg
  split
  · simp; omega
  · simpa using this

/-- Events without a key are not counted. -/
theorem C60_noKey {cf : Nat → Conf V} {s : Sys V} (h : Reachable cf s) : s.keys [] = none := by
  rw [C60_count h []]
  have : countOf cf [] s.gs = 0 := by
    unfold countOf
    rw [List.countP_eq_zero]
    intro g _
    cases hpc : g.pc <;> simp [counted, past]
  simp [this]

/-! ## C61: `Stop` can return -/

/-- Steps a worker has left when it takes `quit` at the next `select`. -/
def left : Pc V → Nat
  | .dead => 0
  | .ret => 1
  | .sel1 | .sel2 => 2
  | .dec3 .. => 3
  | .dec2 .. => 4
  | .dec1 .. => 5
  | .run .. => 6
  | .inc3 .. => 7
  | .inc2 .. => 8
  | .inc1 .. => 9
  | .got .. => 10

def total (gs : List (G V)) : Nat := (gs.map fun g => left g.pc).sum

theorem total_mid (l r : List (G V)) (g : G V) : total (l ++ g :: r) = total l + total r + left g.pc := by
  simp [total]; omega

theorem Steps.trans {cf : Nat → Conf V} {a b c : Sys V} (h1 : Steps cf a b) (h2 : Steps cf b c) : Steps cf a c := by
  induction h2 with
  | refl => exact h1
  | tail _ hs ih => exact ih.tail hs

/-- A worker that is not waiting for the lock can move on, towards its end if `quit` is closed. -/
theorem can_move (c : Conf V) (w : Nat) (s : PState V) (lk : Bool) (ks : Bytes → Option Nat) (pc : Pc V)
    (hl : lk = false ∨ holds pc = true) (hq : s.quit = true ∨ holds pc = true) (hd : isDead pc = false) (hwg : 0 < s.wg ∨ holds pc = true) :
    ∃ v' pc', Work c w ⟨s, lk, ks⟩ pc v' pc' false ∧ left pc' < left pc ∧ v'.pool.quit = s.quit ∧ v'.pool.op = s.op ∧
      v'.pool.stopped = s.stopped ∧ v'.pool.starts = s.starts := by
  cases pc with
  | sel1 => exact ⟨_, _, .quit1 (by simpa [holds] using hq), by simp [left], rfl, rfl, rfl, rfl⟩
  | sel2 => exact ⟨_, _, .quit2 (by simpa [holds] using hq), by simp [left], rfl, rfl, rfl, rfl⟩
  | got h v =>
    by_cases hv : v = none ∨ c.work = false
    · exact ⟨_, _, .skip hv, by simp [left], rfl, rfl, rfl, rfl⟩
    · cases v with
      | none => simp at hv
      | some v =>
        have hw : c.work = true := by simpa using hv
        by_cases hk : c.key v = []
        · exact ⟨_, _, .plain hw hk, by simp [left], rfl, rfl, rfl, rfl⟩
        · exact ⟨_, _, .keyed hw hk, by simp [left], rfl, rfl, rfl, rfl⟩
  | inc1 h v =>
    have : lk = false := by simpa [holds] using hl
    subst this
    exact ⟨_, _, .incLock, by simp [left], rfl, rfl, rfl, rfl⟩
  | inc2 h v => exact ⟨_, _, .incRead, by simp [left], rfl, rfl, rfl, rfl⟩
  | inc3 h v o => exact ⟨_, _, .incWrite, by simp [left], rfl, rfl, rfl, rfl⟩
  | run h v =>
    by_cases hk : c.key v = []
    · exact ⟨_, _, .donePlain hk, by simp [left], rfl, rfl, rfl, rfl⟩
    · exact ⟨_, _, .doneKeyed hk, by simp [left], rfl, rfl, rfl, rfl⟩
  | dec1 h v =>
    have : lk = false := by simpa [holds] using hl
    subst this
    exact ⟨_, _, .decLock, by simp [left], rfl, rfl, rfl, rfl⟩
  | dec2 h v => exact ⟨_, _, .decRead, by simp [left], rfl, rfl, rfl, rfl⟩
  | dec3 h v o => exact ⟨_, _, .decWrite, by simp [left], rfl, rfl, rfl, rfl⟩
  | ret =>
    have hw : 0 < s.wg := by simpa [holds] using hwg
    have hb : decide (s.wg - 1 < 0) = false := by simp; omega
    have := Work.wgDone (c := c) (w := w) (s := s) (l := lk) (k := ks)
    rw [hb] at this
    exact ⟨_, _, this, by simp [left], rfl, rfl, rfl, rfl⟩
  | dead => simp [isDead] at hd

theorem all_dead {p : Nat} {gs : List (G V)} (h : ∀ g ∈ gs, g.pool = p → isDead g.pc = true) :
    cnt p isDead gs = cnt p (fun _ => true) gs := by
  unfold cnt
  apply List.countP_congr
  intro g hg
  simp
  exact h g hg

/-- Whenever a pool is being stopped for the first time, there is a continuation in which `Stop` returns: nothing is deadlocked. -/
theorem C61_canReturn {cf : Nat → Conf V} {s : Sys V} (h : Reachable cf s) (hp : s.panicked = false) (p : Nat)
    (ho : (s.pools p).op = some .stopping) (hs : (s.pools p).starts ≤ 1) :
    ∃ s', Steps cf s s' ∧ s'.panicked = false ∧ (s'.pools p).op = none ∧ (s'.pools p).stopped = (s.pools p).stopped + 1 ∧
      (s'.pools p).starts = (s.pools p).starts := by
  generalize hn : total s.gs = n
  induction n using Nat.strongRecOn generalizing s with
  | _ n ih =>
    obtain ⟨ps, gs, lk, ks, b⟩ := s
    simp only at hp ho hs
    subst hp
    have hi := (allInv h).inv p
    have hk := kinv h
    simp only at hi
    have hq : (ps p).quit = true := by
      apply hi.closed.2
      have := hi.stopping
      simp only [ho] at this
      omega
    have step : ∀ (l r : List (G V)) (q w : Nat) (pc : Pc V), gs = l ++ ⟨q, w, pc⟩ :: r →
        (lk = false ∨ holds pc = true) → ((ps q).quit = true ∨ holds pc = true) → isDead pc = false →
        (0 < (ps q).wg ∨ holds pc = true) →
        ∃ s', Steps cf ⟨ps, gs, lk, ks, false⟩ s' ∧ s'.panicked = false ∧ (s'.pools p).op = none ∧
          (s'.pools p).stopped = (ps p).stopped + 1 ∧ (s'.pools p).starts = (ps p).starts := by
      intro l r q w pc hg h1 h2 h3 h4
      obtain ⟨v', pc', hw, hlt, hquit, hop, hst, hstarts⟩ := can_move (cf q) w (ps q) lk ks pc h1 h2 h3 h4
      have hstep : Step cf ⟨ps, gs, lk, ks, false⟩ ⟨upd ps q v'.pool, l ++ ⟨q, w, pc'⟩ :: r, v'.lock, v'.keys, false⟩ := by
        rw [hg]; exact Step.work q w l r hw
      have e1 : (upd ps q v'.pool p).op = (ps p).op := by
        by_cases e : p = q
        · subst e; rw [upd_self, hop]
        · rw [upd_other _ _ e]
      have e2 : (upd ps q v'.pool p).starts = (ps p).starts := by
        by_cases e : p = q
        · subst e; rw [upd_self, hstarts]
        · rw [upd_other _ _ e]
      have e3 : (upd ps q v'.pool p).stopped = (ps p).stopped := by
        by_cases e : p = q
        · subst e; rw [upd_self, hst]
        · rw [upd_other _ _ e]
      have hn' : total (l ++ ⟨q, w, pc'⟩ :: r) < n := by
        rw [← hn]
        show _ < total gs
        rw [hg, total_mid, total_mid]
        simp only
        omega
      obtain ⟨s', hss, h5, h6, h7, h8⟩ := ih _ hn' (Steps.tail h hstep) rfl (e1.trans ho) (by show (upd ps q v'.pool p).starts ≤ 1; omega) rfl
      refine ⟨s', Steps.trans (.tail (.refl _) hstep) hss, h5, h6, ?_, ?_⟩
      · simp only at h7; omega
      · simp only at h8; omega
    by_cases hlk : lk = true
    · -- somebody holds the lock and moves on
      have hh := hk.hold
      simp only [hlk, b2n, if_true] at hh
      have hpos : 0 < gs.countP (fun g => holds g.pc) := by omega
      obtain ⟨g, hg, hgh⟩ := List.countP_pos_iff.1 hpos
      obtain ⟨l, r, he⟩ := List.append_of_mem hg
      obtain ⟨q, w, pc⟩ := g
      refine step l r q w pc he (.inr hgh) (.inr hgh) ?_ (.inr hgh)
      cases pc <;> simp_all [holds, isDead]
    · by_cases hd : ∀ g ∈ gs, g.pool = p → isDead g.pc = true
      · have hw := hi.wg
        rw [all_dead hd, hi.spawned] at hw
        have hst1 : (ps p).starts = 1 := by
          have h1 := hi.stopping
          have h2 := hi.flag
          simp only [ho] at h1
          omega
        simp only [spawnedOf, ho, hst1, Nat.one_mul] at hw
        have hw0 : (ps p).wg = 0 := by omega
        refine ⟨_, .tail (.refl _) (Step.client p (Client.stopEnd ho hw0)), rfl, ?_, ?_, ?_⟩ <;> simp [upd_self]
      · obtain ⟨g, hg, hgp, hgd⟩ : ∃ g ∈ gs, g.pool = p ∧ isDead g.pc = false := by
          by_contra hc
          apply hd
          intro g hg hgp
          by_contra hx
          exact hc ⟨g, hg, hgp, by simpa using hx⟩
        obtain ⟨l, r, he⟩ := List.append_of_mem hg
        obtain ⟨q, w, pc⟩ := g
        simp only at hgp hgd
        subst hgp
        rw [he] at hi
        exact step l r q w pc he (.inl (by simpa using hlk)) (.inl hq) hgd (.inl (wg_pos hi hgd hs))

/-- From any point of `Start` the pool can finish starting. -/
theorem can_start {cf : Nat → Conf V} (p : Nat) (d : Nat) : ∀ (s : Sys V) (i : Nat), s.panicked = false → (s.pools p).op = some (.starting i) →
    (cf p).n - i = d → ∃ s', Steps cf s s' ∧ s'.panicked = false ∧ (s'.pools p).op = none ∧ (s'.pools p).started = (s.pools p).started ∧
      (s'.pools p).quit = (s.pools p).quit ∧ (s'.pools p).starts = (s.pools p).starts := by
  induction d with
  | zero =>
    intro s i hp ho hd
    obtain ⟨ps, gs, lk, ks, b⟩ := s
    simp only at hp ho
    subst hp
    refine ⟨_, .tail (.refl _) (Step.client p (Client.startEnd ho (by omega))), rfl, ?_, ?_, ?_, ?_⟩ <;> simp [upd_self]
  | succ d ih =>
    intro s i hp ho hd
    obtain ⟨ps, gs, lk, ks, b⟩ := s
    simp only at hp ho
    subst hp
    have hstep := Step.client (cf := cf) (gs := gs) (lk := lk) (ks := ks) p (Client.spawn ho (by omega))
    obtain ⟨s', h1, h2, h3, h4, h5, h6⟩ := ih ⟨upd ps p { ps p with op := some (.starting (i + 1)) }, gs ++ [i].map (fun i => ⟨p, i, .sel1⟩), lk, ks, false⟩ (i + 1) rfl
      (by simp [upd_self]) (by omega)
    refine ⟨s', Steps.trans (.tail (.refl _) hstep) h1, h2, h3, ?_, ?_, ?_⟩
    · rw [h4]; simp [upd_self]
    · rw [h5]; simp [upd_self]
    · rw [h6]; simp [upd_self]

/-- `Start`, `Stop`, `Start`, `Stop` panics, whatever the number of workers and the size of the queues. -/
theorem C61_restart_refuted (cf : Nat → Conf V) (p : Nat) : ∃ s, Reachable cf s ∧ s.panicked = true := by
  have hstart := Step.client (cf := cf) (ps := (initial cf).pools) (gs := []) (lk := false) (ks := fun _ => none) p
    (Client.start (by simp [initial, newPool]) (by simp [initial, newPool]))
  obtain ⟨s1, h1, p1, o1, st1, q1, n1⟩ := can_start (cf := cf) p _
    ⟨upd (initial cf).pools p { (initial cf).pools p with started := true, op := some (.starting 0), starts := ((initial cf).pools p).starts + 1 },
      [] ++ [].map (fun i => ⟨p, i, .sel1⟩), false, fun _ => none, false⟩ 0 rfl (by simp [upd_self]) rfl
  have r1 : Reachable cf s1 := Steps.trans (.tail (.refl _) hstart) h1
  obtain ⟨ps, gs, lk, ks, b⟩ := s1
  simp only [upd_self, initial, newPool] at p1 o1 st1 q1 n1
  subst p1
  have hstop := Step.client (cf := cf) (gs := gs) (lk := lk) (ks := ks) p (Client.stop (s := ps p) (by simp [o1]) st1)
  rw [q1] at hstop
  have r2 := Steps.tail r1 hstop
  obtain ⟨s2, h2, p2, o2, d2, n2⟩ := C61_canReturn r2 rfl p (by simp [upd_self]) (by simp [upd_self, n1])
  have r3 : Reachable cf s2 := Steps.trans r2 h2
  simp only [upd_self] at d2 n2
  have i3 := (allInv r3).inv p
  have s3 : (s2.pools p).started = false := by
    have ha := i3.flag
    have hb := i3.stopping
    rw [o2] at hb
    simp only at hb
    cases hst : (s2.pools p).started with
    | false => rfl
    | true =>
      rw [hst] at ha
      simp [b2n] at ha
      omega
  have q3 : (s2.pools p).quit = true := by
    apply i3.closed.2
    have hb := i3.stopping
    rw [o2] at hb
    simp only at hb
    omega
  obtain ⟨ps, gs, lk, ks, b⟩ := s2
  simp only at p2 o2 s3 q3
  subst p2
  have hstart2 := Step.client (cf := cf) (gs := gs) (lk := lk) (ks := ks) p (Client.start (s := ps p) (by simp [o2]) s3)
  obtain ⟨s4, h4, p4, o4, st4, q4, n4⟩ := can_start (cf := cf) p _
    ⟨upd ps p { ps p with started := true, op := some (.starting 0), starts := (ps p).starts + 1 },
      gs ++ [].map (fun i => ⟨p, i, .sel1⟩), lk, ks, false⟩ 0 rfl (by simp [upd_self]) rfl
  have r4 : Reachable cf s4 := Steps.trans (Steps.tail r3 hstart2) h4
  obtain ⟨ps', gs', lk', ks', b'⟩ := s4
  simp only [upd_self] at p4 o4 st4 q4
  subst p4
  have hstop2 := Step.client (cf := cf) (gs := gs') (lk := lk') (ks := ks') p (Client.stop (s := ps' p) (by simp [o4]) st4)
  exact ⟨_, Steps.tail r4 hstop2, by simp [q4, q3]⟩

/-! ## Examples -/

/-- One worker, queues of one event, key `[1]`. -/
def exConf : Nat → Conf Nat := fun _ => ⟨1, 1, fun _ => [1], true⟩

/-- Post two events, start: the event of high priority is being handled, counted under its key; the other one waits. -/
example : ∃ s, Reachable exConf s ∧ (s.pools 0).calls = [(0, 7)] ∧ inProgs 0 s.gs = [(true, some 7)] ∧ s.keys [1] = some 1 ∧
    (s.pools 0).lower.buf = [some 8] := by
  have h1 := Steps.tail (cf := exConf) (.refl (initial exConf)) (Step.client 0 (Client.postL (some 8)))
  have h2 := h1.tail (Step.client 0 (Client.postH (some 7)))
  have h3 := h2.tail (Step.client 0 (Client.start rfl rfl))
  have h4 := h3.tail (Step.client 0 (Client.spawn rfl (by decide)))
  have h5 := h4.tail (Step.work 0 0 [] [] (Work.high1 rfl))
  have h6 := h5.tail (Step.work 0 0 [] [] (Work.keyed rfl (by simp [exConf])))
  have h7 := h6.tail (Step.work 0 0 [] [] Work.incLock)
  have h8 := h7.tail (Step.work 0 0 [] [] Work.incRead)
  have h9 := h8.tail (Step.work 0 0 [] [] Work.incWrite)
  exact ⟨_, h9, rfl, rfl, rfl, rfl⟩

/-- `Stop` does not wait for queued events: it can return while one is queued, and nobody will handle it. -/
theorem C59_stop_drops : ∃ s, Reachable exConf s ∧ (s.pools 0).stopped = 1 ∧ (s.pools 0).handled = [] ∧
    (s.pools 0).higher.buf = [some 7] := by
  have h1 := Steps.tail (cf := exConf) (.refl (initial exConf)) (Step.client 0 (Client.postH (some 7)))
  have h2 := h1.tail (Step.client 0 (Client.start rfl rfl))
  have h3 := h2.tail (Step.client 0 (Client.spawn rfl (by decide)))
  have h4 := h3.tail (Step.client 0 (Client.startEnd rfl (by decide)))
  have h5 := h4.tail (Step.client 0 (Client.stop rfl rfl))
  have h6 := h5.tail (Step.work 0 0 [] [] (Work.quit1 rfl))
  have h7 := h6.tail (Step.work 0 0 [] [] Work.wgDone)
  have h8 := h7.tail (Step.client 0 (Client.stopEnd rfl (by decide)))
  exact ⟨_, h8, rfl, rfl, rfl⟩

/-- With one worker an event of low priority can still overtake one event of high priority: the bound of `C59_priority` is reached. -/
theorem C59_priority_tight : ∃ s, Reachable exConf s ∧ (s.pools 0).higher.all ≠ [] ∧ (s.pools 0).lowSince = 1 := by
  have h1 := Steps.tail (cf := exConf) (.refl (initial exConf)) (Step.client 0 (Client.start rfl rfl))
  have h2 := h1.tail (Step.client 0 (Client.spawn rfl (by decide)))
  have h3 := h2.tail (Step.work 0 0 [] [] (Work.default rfl rfl))
  have h4 := h3.tail (Step.client 0 (Client.postH (some 7)))
  have h5 := h4.tail (Step.client 0 (Client.postL (some 8)))
  have h6 := h5.tail (Step.work 0 0 [] [] (Work.low2 rfl))
  exact ⟨_, h6, by decide, rfl⟩

/-- An event is handled to its end, and the key is removed again. -/
example : ∃ s, Reachable exConf s ∧ (s.pools 0).handled = [(true, some 7)] ∧ s.keys [1] = none ∧ (s.pools 0).calls = [(0, 7)] := by
  have h2 := Steps.tail (cf := exConf) (.refl (initial exConf)) (Step.client 0 (Client.postH (some 7)))
  have h3 := h2.tail (Step.client 0 (Client.start rfl rfl))
  have h4 := h3.tail (Step.client 0 (Client.spawn rfl (by decide)))
  have h5 := h4.tail (Step.work 0 0 [] [] (Work.high1 rfl))
  have h6 := h5.tail (Step.work 0 0 [] [] (Work.keyed rfl (by simp [exConf])))
  have h7 := h6.tail (Step.work 0 0 [] [] Work.incLock)
  have h8 := h7.tail (Step.work 0 0 [] [] Work.incRead)
  have h9 := h8.tail (Step.work 0 0 [] [] Work.incWrite)
  have h10 := h9.tail (Step.work 0 0 [] [] (Work.doneKeyed (by simp [exConf])))
  have h11 := h10.tail (Step.work 0 0 [] [] Work.decLock)
  have h12 := h11.tail (Step.work 0 0 [] [] Work.decRead)
  have h13 := h12.tail (Step.work 0 0 [] [] Work.decWrite)
  exact ⟨_, h13, rfl, rfl, rfl⟩

end Verif.Pool
