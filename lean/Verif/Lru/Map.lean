import Verif.Conc.Lock
import Mathlib.Data.List.Nodup
import Mathlib.Data.List.Perm.Subperm

/-!
# Property C144: `LruMap` (/repo/types.go:215-253)

The hashicorp cache (`lru.Cache`, trusted: each call is atomic) is the list of its entries, the most recently used first.  Keys are
comparable values of a type `K` (Go panics on keys that are not comparable), values of a type `V`; the nil interface is `none`.
-/

namespace Verif.Lru
open Verif Verif.Conc

variable {K V : Type} [DecidableEq K]

/-- `lru.Cache`: capacity and entries, the most recently used first. -/
structure Cache (K V : Type) where
  size : Nat
  items : List (K × Option V)

/-- `lru.Cache.Contains`: does not refresh. -/
def Cache.contains (c : Cache K V) (k : K) : Bool := c.items.any (·.1 = k)

/-- An entry. -/
def Cache.find (c : Cache K V) (k : K) : Option (Option V) := (c.items.find? (·.1 = k)).map (·.2)

/-- Without a key. -/
def without (k : K) (l : List (K × Option V)) : List (K × Option V) := l.filter (fun e => ¬ e.1 = k)

/-- `lru.Cache.Add`: replaces and refreshes an entry, or adds one and drops the oldest when there is one too many. -/
def Cache.add (c : Cache K V) (k : K) (v : Option V) : Cache K V :=
  if c.contains k then { c with items := (k, v) :: without k c.items }
  else { c with items := if c.size < c.items.length + 1 then (k, v) :: c.items.dropLast else (k, v) :: c.items }

/-- `lru.Cache.Get`: refreshes. -/
def Cache.get (c : Cache K V) (k : K) : Cache K V × Option (Option V) :=
  match c.find k with
  | some v => ({ c with items := (k, v) :: without k c.items }, some v)
  | none => (c, none)

/-- The calls. -/
inductive Call (K V : Type) where
  | add (k : K) (v : Option V) | get (k : K) | contains (k : K) | remove (k : K) | clear

/-- What they return. -/
inductive Ans (V : Type) where
  | flag (b : Bool) | value (v : Option V) | nothing
  deriving DecidableEq

/-- The methods of `LruMap` (`/repo/types.go:227-253`), step by step. -/
def body : Call K V → Prog (Cache K V) (Ans V)
  | .add k v => .step id fun c => if c.contains k then .ret (.flag false) else .step (·.add k v) fun _ => .ret (.flag true)
  | .get k => .step (fun c => (c.get k).1) fun c =>
    match (c.get k).2 with
    | some v => .ret (.value v)
    | none => .ret (.value none)
  | .contains k => .step id fun c => .ret (.flag (c.contains k))
  | .remove k => .step (fun c => { c with items := without k c.items }) fun _ => .ret .nothing
  | .clear => .step (fun c => { c with items := [] }) fun _ => .ret .nothing

/-- `NewLruMap` (`/repo/types.go:219-225`): panics unless the size is positive. -/
def newLruMap (size : Int) : Res (Cache K V) := if size ≤ 0 then .panic else .ok ⟨size.toNat, []⟩

/-- Calls one after another, with their answers. -/
def run (c : Cache K V) : List (Call K V) → Cache K V × List (Call K V × Ans V)
  | [] => (c, [])
  | o :: os =>
    let p := (body o).run c
    let q := run p.1 os
    (q.1, (o, p.2) :: q.2)

/-! ### Facts about the list -/

/-- Entries have different keys, and there are not too many. -/
def Good (c : Cache K V) : Prop := 0 < c.size ∧ (c.items.map (·.1)).Nodup ∧ c.items.length ≤ c.size

theorem mem_without {k : K} {l : List (K × Option V)} {e : K × Option V} : e ∈ without k l ↔ e ∈ l ∧ e.1 ≠ k := by
  simp [without]

theorem contains_iff (c : Cache K V) (k : K) : c.contains k = true ↔ ∃ v, (k, v) ∈ c.items := by
  simp only [Cache.contains, List.any_eq_true, decide_eq_true_eq]
  constructor
  · rintro ⟨⟨k', v⟩, h, rfl⟩
    exact ⟨v, h⟩
  · rintro ⟨v, h⟩
    exact ⟨_, h, rfl⟩

theorem find_some {c : Cache K V} {k : K} {v : Option V} (h : c.find k = some v) : (k, v) ∈ c.items := by
  simp only [Cache.find, Option.map_eq_some_iff] at h
  obtain ⟨⟨k', v'⟩, h1, rfl⟩ := h
  have h2 := List.find?_some h1
  simp only [decide_eq_true_eq] at h2
  subst h2
  exact List.mem_of_find?_eq_some h1

theorem find_none {c : Cache K V} {k : K} (h : c.find k = none) (v : Option V) : (k, v) ∉ c.items := by
  simp only [Cache.find, Option.map_eq_none_iff, List.find?_eq_none, decide_eq_true_eq] at h
  exact fun hm => h _ hm rfl

theorem nodup_without {k : K} {l : List (K × Option V)} (h : (l.map (·.1)).Nodup) : ((without k l).map (·.1)).Nodup := by
  refine h.sublist ?_
  exact (List.filter_sublist).map _

theorem unique {c : Cache K V} (hg : Good c) {k : K} {v v' : Option V} (h : (k, v) ∈ c.items) (h' : (k, v') ∈ c.items) : v = v' := by
  have := List.inj_on_of_nodup_map hg.2.1 h h' rfl
  exact (Prod.mk.inj this).2

theorem find_iff {c : Cache K V} (hg : Good c) {k : K} {v : Option V} : c.find k = some v ↔ (k, v) ∈ c.items := by
  constructor
  · exact find_some
  · intro h
    cases hf : c.find k with
    | none => exact absurd h (find_none hf v)
    | some v' => rw [unique hg h (find_some hf)]

theorem length_without {k : K} {v : Option V} {l : List (K × Option V)} (hm : (k, v) ∈ l) : (without k l).length < l.length := by
  refine List.length_filter_lt_length_iff_exists.2 ⟨_, hm, by simp⟩

theorem add_new {c : Cache K V} {k : K} (v : Option V) (h : c.contains k = false) :
    (c.add k v).items = (k, v) :: if c.size < c.items.length + 1 then c.items.dropLast else c.items := by
  simp only [Cache.add, h, Bool.false_eq_true, if_false]
  split <;> rfl

theorem good_step (c : Cache K V) (hg : Good c) (o : Call K V) : Good ((body o).run c).1 ∧ ((body o).run c).1.size = c.size := by
  obtain ⟨g0, g1, g2⟩ := hg
  have hfresh : ∀ {k : K} {v : Option V} {l : List (K × Option V)}, (l.map (·.1)).Nodup → (∀ v', (k, v') ∉ l) → (((k, v) :: l).map (·.1)).Nodup := by
    intro k v l h1 h2
    simp only [List.map_cons, List.nodup_cons]
    refine ⟨?_, h1⟩
    intro hm
    obtain ⟨⟨k', v'⟩, hm', rfl⟩ := List.mem_map.1 hm
    exact h2 v' hm'
  cases o with
  | add k v =>
    simp only [body, Prog.run, id]
    cases hc : c.contains k with
    | true => exact ⟨⟨g0, g1, g2⟩, rfl⟩
    | false =>
      simp only [Bool.false_eq_true, if_false, Prog.run]
      have hn : ∀ v', (k, v') ∉ c.items := fun v' hm => by
        have := (contains_iff c k).2 ⟨v', hm⟩
        rw [hc] at this; cases this
      have hsz : (c.add k v).size = c.size := by simp only [Cache.add]; split <;> rfl
      refine ⟨⟨by rw [hsz]; exact g0, ?_, ?_⟩, hsz⟩
      · rw [add_new v hc]
        split
        · exact hfresh (g1.sublist ((List.dropLast_sublist _).map _)) fun v' hm => hn v' (List.dropLast_subset _ hm)
        · exact hfresh g1 hn
      · rw [add_new v hc, hsz]
        split
        · simp only [List.length_cons, List.length_dropLast]; omega
        · simp only [List.length_cons]; omega
  | get k =>
    simp only [body, Prog.run, Cache.get]
    cases hf : c.find k with
    | none => exact ⟨⟨g0, g1, g2⟩, rfl⟩
    | some v =>
      have hl := length_without (find_some hf)
      exact ⟨⟨g0, hfresh (nodup_without g1) (fun v' hm => (mem_without.1 hm).2 rfl), by simp only [Prog.run, List.length_cons]; omega⟩, rfl⟩
  | contains k => exact ⟨⟨g0, g1, g2⟩, rfl⟩
  | remove k =>
    refine ⟨⟨g0, nodup_without g1, ?_⟩, rfl⟩
    exact Nat.le_trans (List.length_filter_le _ _) g2
  | clear => exact ⟨⟨g0, by simp [body, Prog.run], by simp [body, Prog.run]⟩, rfl⟩

theorem good_run (os : List (Call K V)) (c : Cache K V) (hg : Good c) : Good (run c os).1 ∧ (run c os).1.size = c.size := by
  induction os generalizing c with
  | nil => exact ⟨hg, rfl⟩
  | cons o os ih =>
    obtain ⟨h1, h2⟩ := good_step c hg o
    obtain ⟨h3, h4⟩ := ih _ h1
    exact ⟨h3, h4.trans h2⟩

theorem run_append (a b : List (Call K V)) (c : Cache K V) :
    run c (a ++ b) = ((run (run c a).1 b).1, (run c a).2 ++ (run (run c a).1 b).2) := by
  induction a generalizing c with
  | nil => rfl
  | cons o os ih => simp only [List.cons_append, run, ih]

/-! ### The claims -/

/-- A new map. -/
def fresh (n : Nat) : Cache K V := ⟨n, []⟩

theorem good_fresh {n : Nat} (h : 0 < n) : Good (fresh n : Cache K V) := ⟨h, by simp [fresh], by simp [fresh]⟩

/-- What the map answers after some calls. -/
def answer (n : Nat) (os : List (Call K V)) (o : Call K V) : Ans V := ((body o).run (run (fresh n) os).1).2

/-- **C144**: a map can be made of every positive size, and of no other. -/
theorem C144_new (size : Int) : (newLruMap size : Res (Cache K V)) = if 0 < size then .ok (fresh size.toNat) else .panic := by
  unfold newLruMap fresh
  by_cases h : size ≤ 0
  · rw [if_pos h, if_neg (by omega)]
  · rw [if_neg h, if_pos (by omega)]

/-- **C144**: never more keys than its size. -/
theorem C144_size (n : Nat) (hn : 0 < n) (os : List (Call K V)) (ks : List K) (hd : ks.Nodup)
    (h : ∀ k ∈ ks, answer n os (.contains k) = .flag true) : ks.length ≤ n := by
  obtain ⟨⟨-, -, g⟩, hs⟩ := good_run os (fresh n : Cache K V) (good_fresh hn)
  rw [hs] at g
  have hsub : ks ⊆ (run (fresh n : Cache K V) os).1.items.map (·.1) := by
    intro k hk
    have := h k hk
    simp only [answer, body, Prog.run, Ans.flag.injEq, contains_iff] at this
    obtain ⟨v, hv⟩ := this
    exact List.mem_map.2 ⟨_, hv, rfl⟩
  have := (hd.subperm hsub).length_le
  rw [List.length_map] at this
  exact Nat.le_trans this g

/-- The calls of a sequence that use a key: `Add` and `Get`. -/
def used : List (Call K V) → List K
  | [] => []
  | .add k _ :: os => k :: used os
  | .get k :: os => k :: used os
  | _ :: os => used os

/-- Whether a call takes a key out. -/
def takesOut (k : K) : Call K V → Bool
  | .remove k' => k' = k
  | .clear => true
  | _ => false

/-- The keys before `k` in the list were used. -/
def Ahead (c : Cache K V) (k : K) (v : Option V) (us : List K) : Prop :=
  ∃ pre post, c.items = pre ++ (k, v) :: post ∧ ∀ e ∈ pre, e.1 ∈ us

theorem without_split {k : K} {v : Option V} {pre post : List (K × Option V)} {x : K} (hx : x ≠ k) :
    without x (pre ++ (k, v) :: post) = without x pre ++ (k, v) :: without x post := by
  have : ¬ k = x := fun e => hx e.symm
  simp [without, List.filter_append, List.filter_cons, this]

theorem ahead_step (c : Cache K V) (hg : Good c) (k : K) (v : Option V) (us : List K) (h : Ahead c k v us) (o : Call K V)
    (ho : takesOut k o = false) (hlt : ∀ l : List K, l.Nodup → k ∉ l → (∀ x ∈ l, x ∈ us ++ used [o]) → l.length < c.size) :
    Ahead ((body o).run c).1 k v (us ++ used [o]) := by
  obtain ⟨pre, post, he, hpre⟩ := h
  have hnd := hg.2.1
  rw [he, List.map_append, List.map_cons] at hnd
  have hkpre : ∀ e ∈ pre, e.1 ≠ k := by
    intro e hm hk
    have := (List.nodup_append.1 hnd).2.2 e.1 (List.mem_map_of_mem hm) k (by simp)
    exact this hk
  have hpre' : ∀ e ∈ pre, e.1 ∈ us ++ used [o] := fun e hm => List.mem_append_left _ (hpre e hm)
  cases o with
  | add x w =>
    simp only [body, Prog.run, id]
    cases hc : c.contains x with
    | true => exact ⟨pre, post, he, hpre'⟩
    | false =>
      simp only [Bool.false_eq_true, if_false, Prog.run]
      have hn : ∀ v', (x, v') ∉ c.items := fun v' hm => by
        have := (contains_iff c x).2 ⟨v', hm⟩
        rw [hc] at this; cases this
      have hxk : x ≠ k := by
        rintro rfl
        exact hn v (by rw [he]; simp)
      have hx' : ∀ e ∈ (x, w) :: pre, e.1 ∈ us ++ used [.add x w] := by
        intro e hm
        rcases List.mem_cons.1 hm with rfl | hm
        · simp [used]
        · exact hpre' e hm
      unfold Ahead
      rw [add_new w hc]
      split
      · next hfull =>
        rcases List.eq_nil_or_concat post with rfl | ⟨post', z, rfl⟩
        · exfalso
          have := hlt (((x, w) :: pre).map (·.1)) ?_ ?_ ?_
          · rw [he] at hfull
            simp only [List.length_append, List.length_cons, List.length_nil, List.length_map] at this hfull
            omega
          · simp only [List.map_cons, List.nodup_cons]
            refine ⟨?_, (List.nodup_append.1 hnd).1⟩
            intro hm
            obtain ⟨⟨k', v'⟩, hm', rfl⟩ := List.mem_map.1 hm
            exact hn v' (by rw [he]; exact List.mem_append_left _ hm')
          · intro hm
            obtain ⟨e, hm, hk⟩ := List.mem_map.1 hm
            rcases List.mem_cons.1 hm with rfl | hm
            · exact hxk hk
            · exact hkpre e hm hk
          · intro y hm
            obtain ⟨e, hm', rfl⟩ := List.mem_map.1 hm
            exact hx' e hm'
        · refine ⟨(x, w) :: pre, post', ?_, hx'⟩
          rw [he, List.concat_eq_append, ← List.cons_append, ← List.append_assoc, List.dropLast_concat]
          simp
      · exact ⟨(x, w) :: pre, post, by rw [he]; simp, hx'⟩
  | get x =>
    simp only [body, Prog.run, Cache.get]
    cases hf : c.find x with
    | none => exact ⟨pre, post, he, hpre'⟩
    | some w =>
      by_cases hxk : x = k
      · subst hxk
        have : w = v := unique hg (find_some hf) (by rw [he]; simp)
        subst this
        exact ⟨[], without x c.items, rfl, by simp⟩
      · refine ⟨(x, w) :: without x pre, without x post, ?_, ?_⟩
        · simp only [Prog.run, he, without_split hxk, List.cons_append]
        · intro e hm
          rcases List.mem_cons.1 hm with rfl | hm
          · simp [used]
          · exact hpre' e (mem_without.1 hm).1
  | contains x => exact ⟨pre, post, he, hpre'⟩
  | remove x =>
    have hxk : x ≠ k := by simpa [takesOut] using ho
    refine ⟨without x pre, without x post, ?_, fun e hm => hpre' e (mem_without.1 hm).1⟩
    simp only [body, Prog.run, he, without_split hxk]
  | clear => simp [takesOut] at ho

theorem ahead_run (os : List (Call K V)) (c : Cache K V) (hg : Good c) (k : K) (v : Option V) (us : List K) (h : Ahead c k v us)
    (ho : ∀ o ∈ os, takesOut k o = false)
    (hlt : ∀ l : List K, l.Nodup → k ∉ l → (∀ x ∈ l, x ∈ us ++ used os) → l.length < c.size) :
    Ahead (run c os).1 k v (us ++ used os) := by
  induction os generalizing c us with
  | nil => simpa [used, run] using h
  | cons o os ih =>
    obtain ⟨h1, h2⟩ := good_step c hg o
    have hu : used (o :: os) = used [o] ++ used os := by cases o <;> simp [used]
    rw [hu, ← List.append_assoc] at hlt ⊢
    refine ih _ h1 _ (ahead_step c hg k v us h o (ho o (by simp)) ?_) (fun o' hm => ho o' (by simp [hm])) ?_
    · exact fun l a1 a2 a3 => hlt l a1 a2 fun x hx => List.mem_append_left _ (a3 x hx)
    · rw [h2]; exact hlt

/-- **C144**: a key added by an `Add` that answered true, or used by a `Get`, keeps its value until it is taken out or as many other
keys as the size of the map have been used. -/
theorem C144_keeps (n : Nat) (hn : 0 < n) (before after : List (Call K V)) (k : K) (v : Option V) (o : Call K V)
    (ho : (o = .add k v ∧ answer n before o = .flag true) ∨
      (o = .get k ∧ answer n before o = .value v ∧ answer n before (.contains k) = .flag true))
    (hout : ∀ o' ∈ after, takesOut k o' = false)
    (hfew : ∀ l : List K, l.Nodup → k ∉ l → (∀ x ∈ l, x ∈ used after) → l.length < n) :
    answer n (before ++ o :: after) (.get k) = .value v ∧ answer n (before ++ o :: after) (.contains k) = .flag true := by
  obtain ⟨hg, hs⟩ := good_run before (fresh n : Cache K V) (good_fresh hn)
  have hrun : (run (fresh n : Cache K V) (before ++ o :: after)).1 = (run ((body o).run (run (fresh n : Cache K V) before).1).1 after).1 := by
    rw [run_append]; rfl
  simp only [answer] at ho ⊢
  generalize run (fresh n : Cache K V) before = p at *
  have hhead : ∃ post, ((body o).run p.1).1.items = (k, v) :: post := by
    rcases ho with ⟨rfl, ha⟩ | ⟨rfl, ha, hb⟩
    · simp only [body, Prog.run, id] at ha ⊢
      cases hc : p.1.contains k with
      | true =>
        rw [hc] at ha
        simp [Prog.run] at ha
      | false =>
        simp only [Bool.false_eq_true, if_false, Prog.run, add_new v hc]
        exact ⟨_, rfl⟩
    · simp only [body, Prog.run, Cache.get, Ans.flag.injEq] at ha hb ⊢
      cases hf : p.1.find k with
      | none =>
        obtain ⟨w, hw⟩ := (contains_iff _ _).1 hb
        exact absurd hw (find_none hf w)
      | some w =>
        rw [hf] at ha
        simp only [Prog.run, Ans.value.injEq] at ha
        subst ha
        exact ⟨_, rfl⟩
  obtain ⟨post, hpost⟩ := hhead
  obtain ⟨hg1, hs1⟩ := good_step p.1 hg o
  have hA := ahead_run after ((body o).run p.1).1 hg1 k v [] ⟨[], post, hpost, by simp⟩ hout (by
    rw [hs1, hs]
    simpa [fresh] using hfew)
  have hg2 := (good_run after ((body o).run p.1).1 hg1).1
  obtain ⟨pre, post', he, -⟩ := hA
  have hm : (k, v) ∈ (run ((body o).run p.1).1 after).1.items := by rw [he]; simp
  rw [hrun]
  generalize run ((body o).run p.1).1 after = q at *
  simp only [body, Prog.run, Cache.get, (find_iff hg2).2 hm, (contains_iff _ _).2 ⟨v, hm⟩, and_self]

theorem entry_step (c : Cache K V) (hg : Good c) (o : Call K V) (k : K) (v : Option V) (h : (k, v) ∈ ((body o).run c).1.items) :
    (o = .add k v ∧ c.contains k = false) ∨ ((k, v) ∈ c.items ∧ takesOut k o = false) := by
  cases o with
  | add x w =>
    simp only [body, Prog.run, id] at h
    cases hc : c.contains x with
    | true =>
      rw [hc] at h
      exact Or.inr ⟨h, rfl⟩
    | false =>
      simp only [hc, Bool.false_eq_true, if_false, Prog.run, add_new w hc, List.mem_cons, Prod.mk.injEq] at h
      rcases h with ⟨rfl, rfl⟩ | h
      · exact Or.inl ⟨rfl, hc⟩
      · refine Or.inr ⟨?_, rfl⟩
        split at h
        · exact List.dropLast_subset _ h
        · exact h
  | get x =>
    simp only [body, Prog.run, Cache.get] at h
    refine Or.inr ⟨?_, rfl⟩
    cases hf : c.find x with
    | none => rw [hf] at h; exact h
    | some w =>
      rw [hf] at h
      rcases List.mem_cons.1 h with h | h
      · cases h
        exact find_some hf
      · exact (mem_without.1 h).1
  | contains x => exact Or.inr ⟨h, rfl⟩
  | remove x =>
    have := mem_without.1 h
    exact Or.inr ⟨this.1, by simpa [takesOut] using fun e => this.2 e.symm⟩
  | clear => simp [body, Prog.run] at h

theorem entry_run (n : Nat) (hn : 0 < n) (os : List (Call K V)) (k : K) (v : Option V) (h : (k, v) ∈ (run (fresh n) os).1.items) :
    ∃ before after, os = before ++ .add k v :: after ∧ answer n before (.add k v) = .flag true ∧ ∀ o ∈ after, takesOut k o = false := by
  induction os using List.reverseRecOn with
  | nil => simp [run, fresh] at h
  | append_singleton os o ih =>
    obtain ⟨hg, -⟩ := good_run os (fresh n : Cache K V) (good_fresh hn)
    rw [run_append] at h
    rcases entry_step _ hg o k v h with ⟨rfl, hc⟩ | ⟨hm, ht⟩
    · exact ⟨os, [], rfl, by simp [answer, body, Prog.run, hc], by simp⟩
    · obtain ⟨before, after, rfl, h1, h2⟩ := ih hm
      refine ⟨before, after ++ [o], by simp, h1, ?_⟩
      intro o' ho'
      rcases List.mem_append.1 ho' with h' | h'
      · exact h2 o' h'
      · rw [List.mem_singleton.1 h']; exact ht

/-- **C144**: what `Get` answers was put there by an `Add` that answered true, and the key has not been taken out since; no later `Add`
of the key was accepted while the entry was there (`C144_add`). -/
theorem C144_value (n : Nat) (hn : 0 < n) (os : List (Call K V)) (k : K) (v : V) (h : answer n os (.get k) = .value (some v)) :
    ∃ before after, os = before ++ .add k (some v) :: after ∧ answer n before (.add k (some v)) = .flag true ∧
      ∀ o ∈ after, takesOut k o = false := by
  refine entry_run n hn os k (some v) ?_
  simp only [answer, body, Prog.run, Cache.get] at h
  cases hf : (run (fresh n) os).1.find k with
  | none => rw [hf] at h; simp [Prog.run] at h
  | some w =>
    rw [hf] at h
    simp only [Prog.run, Ans.value.injEq] at h
    subst h
    exact find_some hf

/-- **C144**: `Add` answers whether the key was missing; it never changes the value of a key that is there. -/
theorem C144_add (n : Nat) (hn : 0 < n) (os : List (Call K V)) (k : K) (v : Option V) :
    (answer n os (.contains k) = .flag false → answer n os (.add k v) = .flag true ∧ answer n (os ++ [.add k v]) (.get k) = .value v) ∧
    (answer n os (.contains k) = .flag true → answer n os (.add k v) = .flag false ∧
      ∀ o, answer n (os ++ [.add k v]) o = answer n os o) := by
  obtain ⟨hg, -⟩ := good_run os (fresh n : Cache K V) (good_fresh hn)
  constructor
  · intro h
    have hc : (run (fresh n) os).1.contains k = false := by simpa [answer, body, Prog.run] using h
    refine ⟨by simp [answer, body, Prog.run, hc], ?_⟩
    have hg' := (good_step _ hg (.add k v)).1
    simp only [body, Prog.run, id, hc, Bool.false_eq_true, if_false] at hg'
    have hm : (k, v) ∈ ((run (fresh n) os).1.add k v).items := by rw [add_new v hc]; simp
    simp only [answer, run_append, run, body, Prog.run, id, hc, Bool.false_eq_true, if_false, Cache.get, (find_iff hg').2 hm]
  · intro h
    have hc : (run (fresh n) os).1.contains k = true := by simpa [answer, body, Prog.run] using h
    refine ⟨by simp [answer, body, Prog.run, hc], fun o => ?_⟩
    simp only [answer, run_append, run]
    congr 2
    simp [body, Prog.run, hc]

/-- The accepted keys are before `k`, or `k` is gone. -/
def Behind (c : Cache K V) (k : K) (new : List K) : Prop :=
  (∀ v, (k, v) ∉ c.items) ∨ ∃ pre post v, c.items = pre ++ (k, v) :: post ∧ ∀ x ∈ new, ∃ w, (x, w) ∈ pre

/-- The keys of the accepted `Add`s. -/
def accepted (l : List (Call K V × Ans V)) : List K :=
  l.filterMap fun e => match e with
    | (.add x _, .flag true) => some x
    | _ => none

/-- A call that uses or takes out nothing, or uses another key. -/
def leaves (k : K) : Call K V → Bool
  | .add x _ => ¬ x = k
  | .get x => ¬ x = k
  | .contains _ => true
  | _ => false

theorem behind_step (c : Cache K V) (hg : Good c) (k : K) (new : List K) (h : Behind c k new) (o : Call K V) (ho : leaves k o = true) :
    Behind ((body o).run c).1 k (new ++ accepted [(o, ((body o).run c).2)]) := by
  rcases h with h | ⟨pre, post, v, he, hpre⟩
  · refine Or.inl fun v hm => ?_
    rcases entry_step c hg o k v hm with ⟨rfl, -⟩ | ⟨hm, -⟩
    · simp [leaves] at ho
    · exact h v hm
  · cases o with
    | add x w =>
      have hxk : x ≠ k := by simpa [leaves] using ho
      simp only [body, Prog.run, id]
      cases hc : c.contains x with
      | true =>
        refine Or.inr ⟨pre, post, v, he, ?_⟩
        simpa [Prog.run, accepted] using hpre
      | false =>
        simp only [Bool.false_eq_true, if_false, Prog.run]
        have hx' : ∀ y ∈ new ++ accepted [(Call.add x w, Ans.flag true)], ∃ u, (y, u) ∈ (x, w) :: pre := by
          intro y hy
          rcases List.mem_append.1 hy with hy | hy
          · obtain ⟨u, hu⟩ := hpre y hy
            exact ⟨u, List.mem_cons_of_mem _ hu⟩
          · have hy : y = x := by simpa [accepted] using hy
            subst hy
            exact ⟨w, by simp⟩
        unfold Behind
        rw [add_new w hc]
        split
        · rcases List.eq_nil_or_concat post with rfl | ⟨post', z, rfl⟩
          · refine Or.inl fun u hm => ?_
            rw [he, List.dropLast_concat] at hm
            rcases List.mem_cons.1 hm with e | hm
            · exact hxk (Prod.mk.inj e).1.symm
            · have hnd := hg.2.1
              rw [he, List.map_append, List.map_cons] at hnd
              exact (List.nodup_append.1 hnd).2.2 k (List.mem_map.2 ⟨_, hm, rfl⟩) k (by simp) rfl
          · refine Or.inr ⟨(x, w) :: pre, post', v, ?_, hx'⟩
            rw [he, List.concat_eq_append, ← List.cons_append, ← List.append_assoc, List.dropLast_concat]
            simp
        · exact Or.inr ⟨(x, w) :: pre, post, v, by rw [he]; simp, hx'⟩
    | get x =>
      have hxk : x ≠ k := by simpa [leaves] using ho
      have hacc : ∀ r, accepted [((Call.get x : Call K V), r)] = [] := fun r => by cases r <;> rfl
      rw [hacc, List.append_nil]
      simp only [body, Prog.run, Cache.get]
      cases hf : c.find x with
      | none => exact Or.inr ⟨pre, post, v, he, hpre⟩
      | some w =>
        refine Or.inr ⟨(x, w) :: without x pre, without x post, v, ?_, ?_⟩
        · simp only [Prog.run, he, without_split hxk, List.cons_append]
        · intro y hy
          obtain ⟨u, hu⟩ := hpre y hy
          by_cases hyx : y = x
          · exact ⟨w, by rw [hyx]; simp⟩
          · exact ⟨u, List.mem_cons_of_mem _ (mem_without.2 ⟨hu, hyx⟩)⟩
    | contains x =>
      refine Or.inr ⟨pre, post, v, he, ?_⟩
      simpa [accepted] using hpre
    | remove x => simp [leaves] at ho
    | clear => simp [leaves] at ho

theorem behind_run (os : List (Call K V)) (c : Cache K V) (hg : Good c) (k : K) (new : List K) (h : Behind c k new)
    (ho : ∀ o ∈ os, leaves k o = true) : Behind (run c os).1 k (new ++ accepted (run c os).2) := by
  induction os generalizing c new with
  | nil => simpa [run, accepted] using h
  | cons o os ih =>
    have h1 := behind_step c hg k new h o (ho o (by simp))
    have h2 := ih _ (good_step c hg o).1 _ h1 fun o' hm => ho o' (by simp [hm])
    have hu : ∀ (e : Call K V × Ans V) l, accepted (e :: l) = accepted [e] ++ accepted l :=
      fun e l => List.filterMap_append (l := [e])
    simp only [run]
    rw [hu, ← List.append_assoc]
    exact h2

/-- **C144**: a key that is not used and not taken out is gone after as many other keys as the size of the map have been accepted. -/
theorem C144_evicts (n : Nat) (hn : 0 < n) (before after : List (Call K V)) (k : K) (ho : ∀ o ∈ after, leaves k o = true)
    (l : List K) (hd : l.Nodup) (hl : n ≤ l.length)
    (hacc : ∀ x ∈ l, ∃ a w b, after = a ++ .add x w :: b ∧ answer n (before ++ a) (.add x w) = .flag true) :
    answer n (before ++ after) (.contains k) = .flag false := by
  obtain ⟨hg, hs⟩ := good_run before (fresh n : Cache K V) (good_fresh hn)
  obtain ⟨hg2, hs2⟩ := good_run after _ hg
  have hB : Behind (run (fresh n : Cache K V) before).1 k [] := by
    by_cases h : ∃ v, (k, v) ∈ (run (fresh n : Cache K V) before).1.items
    · obtain ⟨v, hv⟩ := h
      obtain ⟨pre, post, he⟩ := List.append_of_mem hv
      exact Or.inr ⟨pre, post, v, he, by simp⟩
    · exact Or.inl fun v hv => h ⟨v, hv⟩
  have hmem : ∀ x ∈ l, x ∈ accepted (run (run (fresh n : Cache K V) before).1 after).2 := by
    intro x hx
    obtain ⟨a, w, b, rfl, ha⟩ := hacc x hx
    rw [run_append]
    simp only [answer, run_append] at ha
    have hap : ∀ (p q : List (Call K V × Ans V)), accepted (p ++ q) = accepted p ++ accepted q := fun _ _ => List.filterMap_append
    rw [hap]
    refine List.mem_append_right _ ?_
    simp only [run, ha, accepted]
    simp
  have h3 := behind_run after _ hg k [] hB ho
  simp only [answer, run_append, body, Prog.run, Ans.flag.injEq]
  rw [← Bool.not_eq_true, contains_iff]
  rintro ⟨v, hv⟩
  rcases h3 with h3 | ⟨pre, post, v', he, hpre⟩
  · exact h3 v hv
  · have hsub : l ⊆ pre.map (·.1) := by
      intro x hx
      obtain ⟨w, hw⟩ := hpre x (by simpa using hmem x hx)
      exact List.mem_map.2 ⟨_, hw, rfl⟩
    have h5 := (hd.subperm hsub).length_le
    have h6 := hg2.2.2
    rw [he, hs2, hs] at h6
    simp only [List.length_map, List.length_append, List.length_cons, fresh] at h5 h6
    omega

/-! ### Two goroutines -/

/-- Two goroutines, each making one call: every interleaving of their steps. -/
inductive Par {S R : Type} : S → Prog S R → Prog S R → S → R → R → Prop
  | done (s r r') : Par s (.ret r) (.ret r') s r r'
  | left {s w k q s' r r'} : Par (w s) (k s) q s' r r' → Par s (.step w k) q s' r r'
  | right {s p w k s' r r'} : Par (w s) p (k s) s' r r' → Par s p (.step w k) s' r r'

/-- **C144 refuted for concurrent `Add`s**: of two goroutines that add the same key to an empty map both can be told that it was theirs;
in no order of the two calls does that happen, and the value of one of them is overwritten. -/
theorem C144_concurrent_refuted :
    (∃ s', Par (fresh 4 : Cache Nat Nat) (body (.add 1 (some 10))) (body (.add 1 (some 20))) s' (.flag true) (.flag true) ∧
      s'.find 1 = some (some 20)) ∧
    (run (fresh 4 : Cache Nat Nat) [.add 1 (some 10), .add 1 (some 20)]).2.map (·.2) = [.flag true, .flag false] ∧
    (run (fresh 4 : Cache Nat Nat) [.add 1 (some 20), .add 1 (some 10)]).2.map (·.2) = [.flag true, .flag false] :=
  ⟨⟨_, .left (.right (.left (.right (.done _ _ _)))), rfl⟩, rfl, rfl⟩

theorem add_there {c : Cache K V} {k : K} (v v' : Option V) (h : c.contains k = false) :
    ((c.add k v).add k v').find k = some v' ∧ (c.add k v).find k = some v ∧ (c.add k v).contains k = true := by
  have hc : (c.add k v).contains k = true := by
    rw [contains_iff, add_new v h]
    exact ⟨v, by simp⟩
  refine ⟨?_, ?_, hc⟩
  · unfold Cache.find
    rw [Cache.add, if_pos hc]
    simp
  · unfold Cache.find
    rw [add_new v h]
    simp

/-- **C144**, what is left of it: of two goroutines that add the same missing key at least one is told that it was theirs, and the map
then has the value of one that was told so. -/
theorem C144_concurrent_partial (c s' : Cache K V) (k : K) (v v' : Option V) (r r' : Ans V) (hc : c.contains k = false)
    (h : Par c (body (.add k v)) (body (.add k v')) s' r r') :
    (r = .flag true ∧ s'.find k = some v) ∨ (r' = .flag true ∧ s'.find k = some v') := by
  have t := add_there v v' hc
  have t' := add_there v' v hc
  cases h with
  | left h =>
    simp only [id, hc, Bool.false_eq_true, if_false] at h
    cases h with
    | left h =>
      cases h with
      | right h =>
        simp only [id, t.2.2, if_true] at h
        cases h
        exact Or.inl ⟨rfl, t.2.1⟩
    | right h =>
      simp only [id, hc, Bool.false_eq_true, if_false] at h
      cases h with
      | left h =>
        cases h with
        | right h =>
          cases h
          exact Or.inr ⟨rfl, t.1⟩
      | right h =>
        cases h with
        | left h =>
          cases h
          exact Or.inl ⟨rfl, t'.1⟩
  | right h =>
    simp only [id, hc, Bool.false_eq_true, if_false] at h
    cases h with
    | right h =>
      cases h with
      | left h =>
        simp only [id, t'.2.2, if_true] at h
        cases h
        exact Or.inr ⟨rfl, t'.2.1⟩
    | left h =>
      simp only [id, hc, Bool.false_eq_true, if_false] at h
      cases h with
      | left h =>
        cases h with
        | right h =>
          cases h
          exact Or.inr ⟨rfl, t.1⟩
      | right h =>
        cases h with
        | left h =>
          cases h
          exact Or.inl ⟨rfl, t'.1⟩

/-- A map of two keys: `Get` refreshes, `Contains` does not, a refused `Add` does not. -/
example : (run (fresh 2 : Cache Nat Nat) [.add 1 (some 10), .add 2 (some 20), .add 1 (some 11), .contains 1, .add 3 (some 30), .get 1, .get 2,
      .add 4 (some 40), .get 3, .get 2, .get 4]).2.map (·.2)
    = [.flag true, .flag true, .flag false, .flag true, .flag true, .value none, .value (some 20), .flag true, .value none, .value (some 20),
      .value (some 40)] := rfl

end Verif.Lru
