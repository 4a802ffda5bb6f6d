import Verif.Base

/-!
# The type cache

`typeCache` (`/repo/rlp/typecache.go:47-119, 182-185`) under any number of goroutines: readers load the published map without
a lock, generators work on a copy under the mutex, one memory access per step.  Types with tags (`typekey`) are the elements
of `K`; what `makeDecoder` and `makeWriter` look up for them is given by a graph.

Simplifications: the `typeinfo` of a key is one object named by the key (a key gets a second object only if it is not in the
map, and keys never leave the maps); writers and decoders are not functions here: an info says whether the field is set and
whether the error is; a panic inside `makeDecoder` or `makeWriter` is not modelled.
-/

namespace Verif.Rlp.Cache

/-- The two halves of a `typeinfo` (`/repo/rlp/typecache.go:29-34`). -/
inductive Side where
  | dec
  | wr
  deriving DecidableEq

/-- What `makeDecoder` (`/repo/rlp/decode.go:156-188`) or `makeWriter` (`/repo/rlp/encode.go:139-175`) does for a key. -/
inductive Kind where
  /-- Numbers, strings, bytes, interfaces, types with their own methods: a function that needs no other. -/
  | leaf
  /-- Channels, signed integers, maps, structs whose tags are refused: an error. -/
  | unsupported
  /-- Pointers, slices, arrays and structs: look up the element or the fields, fail if one has an error
  (`/repo/rlp/decode.go:262-273, 405-415, 445-457`, `/repo/rlp/encode.go:303-307, 339-348, 393-402`). -/
  | node
  deriving DecidableEq

/-- The types.  Element and fields are the same for decoder and writer (`structFields`, `/repo/rlp/typecache.go:128-160`). -/
structure Graph (K : Type) where
  kind : Side → K → Kind
  elems : K → List K

variable {K : Type}

/-- What is looked up. -/
def Graph.deps (G : Graph K) (s : Side) (k : K) : List K := if G.kind s k = .node then G.elems k else []

/-- `typeinfo` (`/repo/rlp/typecache.go:29-34`); of each half: not set yet, a function (`true`) or an error (`false`). -/
structure Info where
  dec : Option Bool := none
  wr : Option Bool := none
  deriving DecidableEq

def Info.get (i : Info) : Side → Option Bool
  | .dec => i.dec
  | .wr => i.wr

def Info.set (i : Info) (r : Bool) : Side → Info
  | .dec => { i with dec := some r }
  | .wr => { i with wr := some r }

variable [DecidableEq K]

def upd {A : Type} (f : K → A) (k : K) (a : A) : K → A := fun x => if x = k then a else f x

/-- A running `makeDecoder` or `makeWriter`: the key, which of both, what is still to be looked up. -/
structure Frame (K : Type) where
  key : K
  side : Side
  todo : List K

/-- A running `generate`: the infos in memory, the keys in `c.next`, the calls of `info.generate` that have not returned. -/
structure Gen (K : Type) where
  mem : K → Info
  next : K → Bool
  stack : List (Frame K)

/-- `new(typeinfo)`, put into `c.next`, and the call of `info.generate` (`/repo/rlp/typecache.go:115-117`). -/
def Gen.enter (G : Graph K) (g : Gen K) (k : K) : Gen K :=
  { mem := upd g.mem k {}, next := upd g.next k true, stack := ⟨k, .dec, G.deps .dec k⟩ :: g.stack }

/-- The function or the error: the error of the first element that has one, if any. -/
def result (G : Graph K) (mem : K → Info) (s : Side) (k : K) : Bool :=
  match G.kind s k with
  | .leaf => true
  | .unsupported => false
  | .node => (G.elems k).all (fun d => (mem d).get s != some false)

/-- One step: a lookup (`infoWhileGenerating`, `/repo/rlp/typecache.go:107-119`), or the assignment of the result
(`/repo/rlp/typecache.go:182-185`). -/
def Gen.step (G : Graph K) (g : Gen K) : Gen K :=
  match g.stack with
  | [] => g
  | ⟨k, s, d :: todo⟩ :: st =>
    if g.next d then { g with stack := ⟨k, s, todo⟩ :: st }
    else Gen.enter G { g with stack := ⟨k, s, todo⟩ :: st } d
  | ⟨k, .dec, []⟩ :: st =>
    { g with mem := upd g.mem k ((g.mem k).set (result G g.mem .dec k) .dec), stack := ⟨k, .wr, G.deps .wr k⟩ :: st }
  | ⟨k, .wr, []⟩ :: st =>
    { g with mem := upd g.mem k ((g.mem k).set (result G g.mem .wr k) .wr), stack := st }

/-- Where a goroutine is in `info` and `generate` (`/repo/rlp/typecache.go:73-105`). -/
inductive Pc (K : Type) where
  | idle
  /-- At the first load. -/
  | asked (k : K)
  /-- At the lock. -/
  | missed (k : K)
  /-- At the second load. -/
  | locked (k : K)
  /-- Generating. -/
  | gen (k : K) (next : K → Bool) (stack : List (Frame K))
  /-- `cur` is stored, at the unlock. -/
  | stored (k : K)
  /-- Has the info of `k`. -/
  | got (k : K)

/-- The infos in memory, the keys of the published map `c.cur`, the mutex, the goroutines; `roots`: the keys `generate` has
generated, the last one first (for the statements only). -/
structure St (K : Type) where
  mem : K → Info
  cur : K → Bool
  lock : Bool
  pc : Nat → Pc K
  roots : List K

def init : St K := { mem := fun _ => {}, cur := fun _ => false, lock := false, pc := fun _ => .idle, roots := [] }

def setPc (pc : Nat → Pc K) (i : Nat) (p : Pc K) : Nat → Pc K := fun j => if j = i then p else pc j

/-- A step of goroutine `i`. -/
inductive Move (G : Graph K) (i : Nat) : St K → St K → Prop
  /-- `info` is called. -/
  | call {σ : St K} (k : K) (h : σ.pc i = .idle ∨ ∃ k', σ.pc i = .got k') : Move G i σ { σ with pc := setPc σ.pc i (.asked k) }
  /-- `/repo/rlp/typecache.go:75-77` -/
  | hit {σ : St K} {k : K} (h : σ.pc i = .asked k) (hc : σ.cur k = true) : Move G i σ { σ with pc := setPc σ.pc i (.got k) }
  | miss {σ : St K} {k : K} (h : σ.pc i = .asked k) (hc : σ.cur k = false) : Move G i σ { σ with pc := setPc σ.pc i (.missed k) }
  /-- `/repo/rlp/typecache.go:84` -/
  | lock {σ : St K} {k : K} (h : σ.pc i = .missed k) (hl : σ.lock = false) :
      Move G i σ { σ with lock := true, pc := setPc σ.pc i (.locked k) }
  /-- `/repo/rlp/typecache.go:87-90` -/
  | hit2 {σ : St K} {k : K} (h : σ.pc i = .locked k) (hc : σ.cur k = true) :
      Move G i σ { σ with lock := false, pc := setPc σ.pc i (.got k) }
  /-- `/repo/rlp/typecache.go:92-99`: copy and start. -/
  | start {σ : St K} {k : K} (h : σ.pc i = .locked k) (hc : σ.cur k = false) :
      Move G i σ { σ with mem := (Gen.enter G ⟨σ.mem, σ.cur, []⟩ k).mem,
                          pc := setPc σ.pc i (.gen k (Gen.enter G ⟨σ.mem, σ.cur, []⟩ k).next (Gen.enter G ⟨σ.mem, σ.cur, []⟩ k).stack) }
  | step {σ : St K} {k : K} {next : K → Bool} {f : Frame K} {st : List (Frame K)} (h : σ.pc i = .gen k next (f :: st)) :
      Move G i σ { σ with mem := (Gen.step G ⟨σ.mem, next, f :: st⟩).mem,
                          pc := setPc σ.pc i (.gen k (Gen.step G ⟨σ.mem, next, f :: st⟩).next (Gen.step G ⟨σ.mem, next, f :: st⟩).stack) }
  /-- `/repo/rlp/typecache.go:102-103` -/
  | store {σ : St K} {k : K} {next : K → Bool} (h : σ.pc i = .gen k next []) :
      Move G i σ { σ with cur := next, roots := k :: σ.roots, pc := setPc σ.pc i (.stored k) }
  /-- `/repo/rlp/typecache.go:85, 104` -/
  | unlock {σ : St K} {k : K} (h : σ.pc i = .stored k) : Move G i σ { σ with lock := false, pc := setPc σ.pc i (.got k) }

/-- Every schedule. -/
inductive Reach (G : Graph K) : St K → Prop
  | init : Reach G init
  | move {σ τ : St K} {i : Nat} : Reach G σ → Move G i σ τ → Reach G τ

/-! ### What is right -/

/-- Types that the function of `k` comes to. -/
inductive Uses (G : Graph K) (s : Side) (k : K) : K → Prop
  | self : Uses G s k k
  | dep {d e : K} : Uses G s k d → e ∈ G.deps s d → Uses G s k e

/-- `k` contains a type that is not supported. -/
def Bad (G : Graph K) (s : Side) (k : K) : Prop := ∃ d, Uses G s k d ∧ G.kind s d = .unsupported

/-- The function of `k` never comes to a function that is not there. -/
def Usable (G : Graph K) (mem : K → Info) (s : Side) (k : K) : Prop := ∀ d, Uses G s k d → (mem d).get s = some true

omit [DecidableEq K] in
theorem Uses.trans {G : Graph K} {s : Side} {a b c : K} (h : Uses G s a b) (h2 : Uses G s b c) : Uses G s a c := by
  induction h2 with
  | self => exact h
  | dep _ hm ih => exact ih.dep hm

omit [DecidableEq K] in
theorem bad_dep {G : Graph K} {s : Side} {k d : K} (hd : d ∈ G.deps s k) (h : Bad G s d) : Bad G s k := by
  obtain ⟨e, he, hu⟩ := h
  exact ⟨e, (Uses.self.dep hd).trans he, hu⟩

/-! ### `generate` -/

theorem get_set {i : Info} {r : Bool} {s t : Side} : (i.set r s).get t = if t = s then some r else i.get t := by
  cases s <;> cases t <;> rfl

omit [DecidableEq K] in
theorem result_true {G : Graph K} {mem : K → Info} {s : Side} {k : K} (h : result G mem s k = true) :
    G.kind s k ≠ .unsupported ∧ ∀ d ∈ G.deps s k, (mem d).get s ≠ some false := by
  rw [result] at h
  split at h
  · rename_i hk; exact ⟨by rw [hk]; simp, by simp [Graph.deps, hk]⟩
  · simp at h
  · rename_i hk
    refine ⟨by rw [hk]; simp, fun d hd => ?_⟩
    rw [Graph.deps, if_pos hk] at hd
    have := List.all_eq_true.mp h d hd
    simpa using this

omit [DecidableEq K] in
theorem result_false {G : Graph K} {mem : K → Info} {s : Side} {k : K} (h : result G mem s k = false) :
    G.kind s k = .unsupported ∨ ∃ d ∈ G.deps s k, (mem d).get s = some false := by
  rw [result] at h
  split at h
  · simp at h
  · rename_i hk; exact .inl hk
  · rename_i hk
    right
    rw [List.all_eq_false] at h
    obtain ⟨d, hd, hx⟩ := h
    exact ⟨d, by rw [Graph.deps, if_pos hk]; exact hd, by simpa using hx⟩

/-- While `generate` runs, from the published keys `base`. -/
structure GInv (G : Graph K) (base : K → Bool) (root : K) (g : Gen K) : Prop where
  /-- The copy is kept. -/
  sub : ∀ k, base k = true → g.next k = true
  fresh : ∀ f ∈ g.stack, base f.key = false ∧ g.next f.key = true
  nodup : (g.stack.map (·.key)).Nodup
  /-- What has returned is complete. -/
  full : ∀ k, g.next k = true → (∀ f ∈ g.stack, f.key ≠ k) → ∀ s, (g.mem k).get s ≠ none
  open_ : ∀ f ∈ g.stack, (g.mem f.key).get .wr = none ∧ ((g.mem f.key).get .dec = none ↔ f.side = .dec)
  /-- What was looked up is in the map. -/
  closed : ∀ k s, g.next k = true → (g.mem k).get s ≠ none → ∀ d ∈ G.deps s k, g.next d = true
  part : ∀ f ∈ g.stack, ∀ d ∈ G.deps f.side f.key, d ∈ f.todo ∨ g.next d = true
  within : ∀ f ∈ g.stack, ∀ d ∈ f.todo, d ∈ G.deps f.side f.key
  root : g.next root = true
  blank : ∀ k, g.next k = false → g.mem k = {}
  /-- An error has a reason. -/
  sound : ∀ k s, g.next k = true → (g.mem k).get s = some false → Bad G s k

theorem upd_self {A : Type} (f : K → A) (k : K) (a : A) : upd f k a k = a := by simp [upd]

theorem upd_ne {A : Type} (f : K → A) {k x : K} (a : A) (h : x ≠ k) : upd f k a x = f x := by simp [upd, h]

omit [DecidableEq K] in
theorem ginv_skip {G : Graph K} {base : K → Bool} {root k d : K} {s : Side} {todo : List K} {mem : K → Info} {next : K → Bool}
    {st : List (Frame K)} (h : GInv G base root ⟨mem, next, ⟨k, s, d :: todo⟩ :: st⟩) (hd : next d = true) :
    GInv G base root ⟨mem, next, ⟨k, s, todo⟩ :: st⟩ := by
  refine ⟨h.sub, ?_, h.nodup, ?_, ?_, h.closed, ?_, ?_, h.root, h.blank, h.sound⟩
  rotate_left 4
  · intro f hf
    rcases List.mem_cons.mp hf with rfl | hf
    · intro e he; exact h.within ⟨k, s, d :: todo⟩ (by simp) e (by simp [show e ∈ todo from he])
    · exact h.within f (by simp [hf])
  · intro f hf
    rcases List.mem_cons.mp hf with rfl | hf
    · exact h.fresh ⟨k, s, d :: todo⟩ (by simp)
    · exact h.fresh f (by simp [hf])
  · intro x hx hn
    refine h.full x hx fun f hf => ?_
    rcases List.mem_cons.mp hf with rfl | hf
    · exact hn ⟨k, s, todo⟩ (by simp)
    · exact hn f (by simp [hf])
  · intro f hf
    rcases List.mem_cons.mp hf with rfl | hf
    · exact h.open_ ⟨k, s, d :: todo⟩ (by simp)
    · exact h.open_ f (by simp [hf])
  · intro f hf
    rcases List.mem_cons.mp hf with rfl | hf
    · intro e he
      rcases h.part ⟨k, s, d :: todo⟩ (by simp) e he with h1 | h1
      · rcases List.mem_cons.mp h1 with rfl | h1
        · exact .inr hd
        · exact .inl h1
      · exact .inr h1
    · exact h.part f (by simp [hf])

theorem ginv_enter {G : Graph K} {base : K → Bool} {root d : K} {g : Gen K} (hd : g.next d = false) (hb : base d = false)
    (sub : ∀ k, base k = true → g.next k = true)
    (fresh : ∀ f ∈ g.stack, base f.key = false ∧ g.next f.key = true)
    (nodup : (g.stack.map (·.key)).Nodup)
    (full : ∀ k, g.next k = true → (∀ f ∈ g.stack, f.key ≠ k) → ∀ s, (g.mem k).get s ≠ none)
    (open_ : ∀ f ∈ g.stack, (g.mem f.key).get .wr = none ∧ ((g.mem f.key).get .dec = none ↔ f.side = .dec))
    (closed : ∀ k s, g.next k = true → (g.mem k).get s ≠ none → ∀ d ∈ G.deps s k, g.next d = true)
    (part : ∀ f ∈ g.stack, ∀ e ∈ G.deps f.side f.key, e ∈ f.todo ∨ e = d ∨ g.next e = true)
    (within : ∀ f ∈ g.stack, ∀ e ∈ f.todo, e ∈ G.deps f.side f.key)
    (hroot : g.next root = true ∨ root = d)
    (blank : ∀ k, g.next k = false → g.mem k = {})
    (sound : ∀ k s, g.next k = true → (g.mem k).get s = some false → Bad G s k) :
    GInv G base root (Gen.enter G g d) := by
  have hne : ∀ {k}, g.next k = true → k ≠ d := by rintro k hk rfl; rw [hd] at hk; cases hk
  have hnx : ∀ {k}, g.next k = true → upd g.next d true k = true := by
    intro k hk; rw [upd_ne _ _ (hne hk)]; exact hk
  refine ⟨fun k hk => hnx (sub k hk), ?_, ?_, ?_, ?_, ?_, ?_, ?_, ?_, ?_, ?_⟩
  rotate_left 6
  · intro f hf
    rcases List.mem_cons.mp hf with rfl | hf
    · exact fun e he => he
    · exact within f hf
  rotate_left 3
  · intro f hf
    rcases List.mem_cons.mp hf with rfl | hf
    · exact ⟨hb, upd_self ..⟩
    · exact ⟨(fresh f hf).1, hnx (fresh f hf).2⟩
  · refine List.nodup_cons.mpr ⟨fun hm => ?_, nodup⟩
    obtain ⟨f, hf, rfl⟩ := List.mem_map.mp hm
    exact hne (fresh f hf).2 rfl
  · intro k hk hn
    have hkd : k ≠ d := fun e => hn ⟨d, .dec, _⟩ (List.mem_cons_self ..) e.symm
    have hk' : g.next k = true := by
      have : upd g.next d true k = true := hk
      rwa [upd_ne _ _ hkd] at this
    show ∀ s, (upd g.mem d {} k).get s ≠ none
    rw [upd_ne _ _ hkd]
    exact full k hk' fun f hf => hn f (List.mem_cons_of_mem _ hf)
  · intro f hf
    rcases List.mem_cons.mp hf with rfl | hf
    · show (upd g.mem d {} d).get .wr = none ∧ _
      simp only [Gen.enter, upd_self]
      exact ⟨rfl, by simp [Info.get]⟩
    · simp only [Gen.enter, upd_ne _ _ (hne (fresh f hf).2)]
      exact open_ f hf
  · intro k s hk hl e he
    by_cases hkd : k = d
    · subst hkd
      simp only [Gen.enter, upd_self] at hl
      cases s <;> exact absurd rfl hl
    · simp only [Gen.enter, upd_ne _ _ hkd] at hk hl
      exact hnx (closed k s hk hl e he)
  · intro f hf
    rcases List.mem_cons.mp hf with rfl | hf
    · intro e he; exact .inl he
    · intro e he
      rcases part f hf e he with h1 | rfl | h1
      · exact .inl h1
      · exact .inr (upd_self ..)
      · exact .inr (hnx h1)
  · rcases hroot with h | rfl
    · exact hnx h
    · exact upd_self ..
  · intro k hk
    have hkd : k ≠ d := by
      rintro rfl
      have : upd g.next k true k = false := hk
      rw [upd_self] at this; cases this
    simp only [Gen.enter, upd_ne _ _ hkd] at hk ⊢
    exact blank k hk
  · intro k s hk hl
    by_cases hkd : k = d
    · subst hkd
      simp only [Gen.enter, upd_self] at hl
      cases s <;> cases hl
    · simp only [Gen.enter, upd_ne _ _ hkd] at hk hl
      exact sound k s hk hl

theorem ginv_start {G : Graph K} {cur : K → Bool} {mem : K → Info} {k : K} (hk : cur k = false)
    (full : ∀ k, cur k = true → ∀ s, (mem k).get s ≠ none)
    (closed : ∀ k s, cur k = true → ∀ d ∈ G.deps s k, cur d = true)
    (blank : ∀ k, cur k = false → mem k = {})
    (sound : ∀ k s, cur k = true → (mem k).get s = some false → Bad G s k) :
    GInv G cur k (Gen.enter G ⟨mem, cur, []⟩ k) :=
  ginv_enter hk hk (fun _ h => h) (by simp) (by simp) (fun k h _ => full k h) (by simp) (fun k s h _ => closed k s h) (by simp)
    (by simp) (.inr rfl) blank sound

theorem ginv_push {G : Graph K} {base : K → Bool} {root k d : K} {s : Side} {todo : List K} {mem : K → Info} {next : K → Bool}
    {st : List (Frame K)} (h : GInv G base root ⟨mem, next, ⟨k, s, d :: todo⟩ :: st⟩) (hd : next d = false) :
    GInv G base root (Gen.enter G ⟨mem, next, ⟨k, s, todo⟩ :: st⟩ d) := by
  have hb : base d = false := by
    cases hb : base d with
    | false => rfl
    | true => have : next d = true := h.sub d hb
              rw [hd] at this; cases this
  refine ginv_enter hd hb h.sub ?_ h.nodup ?_ ?_ h.closed ?_ ?_ (.inl h.root) h.blank h.sound
  rotate_left 4
  · intro f hf
    rcases List.mem_cons.mp hf with rfl | hf
    · intro e he; exact h.within ⟨k, s, d :: todo⟩ (by simp) e (by simp [show e ∈ todo from he])
    · exact h.within f (by simp [hf])
  · intro f hf
    rcases List.mem_cons.mp hf with rfl | hf
    · exact h.fresh ⟨k, s, d :: todo⟩ (by simp)
    · exact h.fresh f (by simp [hf])
  · intro x hx hn
    refine h.full x hx fun f hf => ?_
    rcases List.mem_cons.mp hf with rfl | hf
    · exact hn ⟨k, s, todo⟩ (by simp)
    · exact hn f (by simp [hf])
  · intro f hf
    rcases List.mem_cons.mp hf with rfl | hf
    · exact h.open_ ⟨k, s, d :: todo⟩ (by simp)
    · exact h.open_ f (by simp [hf])
  · intro f hf
    rcases List.mem_cons.mp hf with rfl | hf
    · intro e he
      rcases h.part ⟨k, s, d :: todo⟩ (by simp) e he with h1 | h1
      · rcases List.mem_cons.mp h1 with rfl | h1
        · exact .inr (.inl rfl)
        · exact .inl h1
      · exact .inr (.inr h1)
    · intro e he
      rcases h.part f (by simp [hf]) e he with h1 | h1
      · exact .inl h1
      · exact .inr (.inr h1)

/-- What assigning a result keeps. -/
theorem label_closed {G : Graph K} {base : K → Bool} {root k : K} {s : Side} {mem : K → Info} {next : K → Bool}
    {st : List (Frame K)} (h : GInv G base root ⟨mem, next, ⟨k, s, []⟩ :: st⟩) :
    (∀ x t, next x = true → (upd mem k ((mem k).set (result G mem s k) s) x).get t ≠ none → ∀ d ∈ G.deps t x, next d = true) ∧
    (∀ x t, next x = true → (upd mem k ((mem k).set (result G mem s k) s) x).get t = some false → Bad G t x) ∧
    (∀ x, next x = false → upd mem k ((mem k).set (result G mem s k) s) x = {}) := by
  have hk : next k = true := (h.fresh _ (List.mem_cons_self ..)).2
  have hp := h.part _ (List.mem_cons_self ..)
  refine ⟨?_, ?_, ?_⟩
  · intro x t hx hl d hd
    by_cases hxk : x = k
    · subst hxk
      rw [upd_self, get_set] at hl
      by_cases hts : t = s
      · subst hts
        rcases hp d hd with h1 | h1
        · simp at h1
        · exact h1
      · rw [if_neg hts] at hl
        exact h.closed x t hx hl d hd
    · rw [upd_ne _ _ hxk] at hl
      exact h.closed x t hx hl d hd
  · intro x t hx hl
    by_cases hxk : x = k
    · subst hxk
      rw [upd_self, get_set] at hl
      by_cases hts : t = s
      · subst hts
        rw [if_pos rfl] at hl
        rcases result_false (Option.some.inj hl) with hu | ⟨d, hd, hf⟩
        · exact ⟨x, .self, hu⟩
        · refine bad_dep hd (h.sound d t ?_ hf)
          rcases hp d hd with h1 | h1
          · simp at h1
          · exact h1
      · rw [if_neg hts] at hl
        exact h.sound x t hx hl
    · rw [upd_ne _ _ hxk] at hl
      exact h.sound x t hx hl
  · intro x hx
    have hxk : x ≠ k := by rintro rfl; rw [hk] at hx; cases hx
    rw [upd_ne _ _ hxk]
    exact h.blank x hx

theorem ginv_dec {G : Graph K} {base : K → Bool} {root k : K} {mem : K → Info} {next : K → Bool}
    {st : List (Frame K)} (h : GInv G base root ⟨mem, next, ⟨k, .dec, []⟩ :: st⟩) :
    GInv G base root ⟨upd mem k ((mem k).set (result G mem .dec k) .dec), next, ⟨k, .wr, G.deps .wr k⟩ :: st⟩ := by
  obtain ⟨hc, hs, hb⟩ := label_closed h
  have hnd := List.nodup_cons.mp h.nodup
  have hne : ∀ f ∈ st, f.key ≠ k := fun f hf e => hnd.1 (List.mem_map.mpr ⟨f, hf, e⟩)
  refine ⟨h.sub, ?_, h.nodup, ?_, ?_, hc, ?_, ?_, h.root, hb, hs⟩
  rotate_left 4
  · intro f hf
    rcases List.mem_cons.mp hf with rfl | hf
    · exact fun e he => he
    · exact h.within f (by simp [hf])
  · intro f hf
    rcases List.mem_cons.mp hf with rfl | hf
    · exact h.fresh ⟨k, .dec, []⟩ (by simp)
    · exact h.fresh f (by simp [hf])
  · intro x hx hn
    have hxk : x ≠ k := fun e => hn ⟨k, .wr, _⟩ (List.mem_cons_self ..) e.symm
    simp only [upd_ne _ _ hxk]
    refine h.full x hx fun f hf => ?_
    rcases List.mem_cons.mp hf with rfl | hf
    · exact fun e => hxk e.symm
    · exact hn f (by simp [hf])
  · intro f hf
    rcases List.mem_cons.mp hf with rfl | hf
    · have := h.open_ ⟨k, .dec, []⟩ (by simp)
      simp only [upd_self, get_set]
      exact ⟨by simpa using this.1, by simp⟩
    · simp only [upd_ne _ _ (hne f hf)]
      exact h.open_ f (by simp [hf])
  · intro f hf
    rcases List.mem_cons.mp hf with rfl | hf
    · intro e he; exact .inl he
    · exact h.part f (by simp [hf])

theorem ginv_wr {G : Graph K} {base : K → Bool} {root k : K} {mem : K → Info} {next : K → Bool}
    {st : List (Frame K)} (h : GInv G base root ⟨mem, next, ⟨k, .wr, []⟩ :: st⟩) :
    GInv G base root ⟨upd mem k ((mem k).set (result G mem .wr k) .wr), next, st⟩ := by
  obtain ⟨hc, hs, hb⟩ := label_closed h
  have hnd := List.nodup_cons.mp h.nodup
  have hne : ∀ f ∈ st, f.key ≠ k := fun f hf e => hnd.1 (List.mem_map.mpr ⟨f, hf, e⟩)
  refine ⟨h.sub, fun f hf => h.fresh f (by simp [hf]), hnd.2, ?_, ?_, hc, fun f hf => h.part f (by simp [hf]),
    fun f hf => h.within f (by simp [hf]), h.root, hb, hs⟩
  · intro x hx hn
    by_cases hxk : x = k
    · subst hxk
      have := h.open_ ⟨x, .wr, []⟩ (by simp)
      have h2 : (mem x).get .dec ≠ none := fun e => by simpa using this.2.mp e
      intro s
      simp only [upd_self, get_set]
      cases s
      · simpa using h2
      · simp
    · simp only [upd_ne _ _ hxk]
      refine h.full x hx fun f hf => ?_
      rcases List.mem_cons.mp hf with rfl | hf
      · exact fun e => hxk e.symm
      · exact hn f hf
  · intro f hf
    simp only [upd_ne _ _ (hne f hf)]
    exact h.open_ f (by simp [hf])

theorem ginv_step {G : Graph K} {base : K → Bool} {root : K} {g : Gen K} (h : GInv G base root g) : GInv G base root (g.step G) := by
  obtain ⟨mem, next, stack⟩ := g
  rw [Gen.step.eq_def]
  split
  · exact h
  · rename_i hs
    simp only at hs
    subst hs
    split
    · rename_i hd; exact ginv_skip h hd
    · rename_i hd; exact ginv_push h (by simpa using hd)
  · rename_i hs
    simp only at hs
    subst hs
    exact ginv_dec h
  · rename_i hs
    simp only at hs
    subst hs
    exact ginv_wr h

/-- Infos in the published map are not touched. -/
theorem step_keeps {G : Graph K} {base : K → Bool} {root : K} {g : Gen K} (h : GInv G base root g) (k : K) (hk : base k = true) :
    (g.step G).mem k = g.mem k := by
  obtain ⟨mem, next, stack⟩ := g
  have key : ∀ f ∈ stack, k ≠ f.key := by
    rintro f hf rfl
    have := (h.fresh f hf).1
    rw [hk] at this; cases this
  rw [Gen.step.eq_def]
  split
  · rfl
  · rename_i d todo st hs
    simp only at hs
    subst hs
    split
    · rfl
    · rename_i hd
      refine upd_ne _ _ ?_
      rintro rfl
      exact hd (h.sub _ hk)
  · rename_i hs
    simp only at hs
    subst hs
    exact upd_ne _ _ (key _ (List.mem_cons_self ..))
  · rename_i hs
    simp only at hs
    subst hs
    exact upd_ne _ _ (key _ (List.mem_cons_self ..))

/-! ### Exactness of a first query -/

/-- Decoder and writer look up the same: types that have a method have both. -/
def Even (G : Graph K) : Prop := ∀ k, G.kind .dec k = .node ↔ G.kind .wr k = .node

omit [DecidableEq K] in
theorem Even.deps {G : Graph K} (hE : Even G) (s t : Side) (k : K) : G.deps s k = G.deps t k := by
  have : G.kind s k = .node ↔ G.kind t k = .node := by
    cases s <;> cases t
    · rfl
    · exact hE k
    · exact (hE k).symm
    · rfl
  by_cases h : G.kind s k = .node
  · rw [Graph.deps, Graph.deps, if_pos h, if_pos (this.mp h)]
  · rw [Graph.deps, Graph.deps, if_neg h, if_neg (fun e => h (this.mpr e))]

/-- Each frame was entered from the one below, which is at work on its decoder; the last one is the root. -/
def Chain (G : Graph K) (root : K) : List (Frame K) → Prop
  | [] => True
  | [f] => f.key = root
  | f :: b :: st => b.side = .dec ∧ f.key ∈ G.deps .dec b.key ∧ Chain G root (b :: st)

omit [DecidableEq K] in
theorem Chain.swap {G : Graph K} {root k : K} {s t : Side} {l m : List K} {st : List (Frame K)} (h : Chain G root (⟨k, s, l⟩ :: st)) :
    Chain G root (⟨k, t, m⟩ :: st) := by
  cases st with
  | nil => exact h
  | cons b st => exact h

omit [DecidableEq K] in
theorem Chain.tail {G : Graph K} {root : K} {f : Frame K} {st : List (Frame K)} (h : Chain G root (f :: st)) : Chain G root st := by
  cases st with
  | nil => trivial
  | cons b st => exact h.2.2

/-- An error is on its way to the root. -/
def Pending (G : Graph K) (s : Side) (root : K) (g : Gen K) : Prop :=
  (g.mem root).get s = some false ∨ ∃ b ∈ g.stack, (g.mem b.key).get s = none ∧ ∃ d ∈ G.deps s b.key, (g.mem d).get s = some false

structure EInv (G : Graph K) (s : Side) (base : K → Bool) (root : K) (g : Gen K) : Prop where
  chain : Chain G root g.stack
  /-- A function of a type whose element has an error: only if the root gets an error, too. -/
  late : ∀ k, g.next k = true → base k = false → (g.mem k).get s = some true →
    G.kind s k ≠ .unsupported ∧ ∀ d ∈ G.deps s k, (g.mem d).get s = some false → Pending G s root g
  /-- An error at an element: it is on its way. -/
  seen : ∀ k, g.next k = true → base k = false → (g.mem k).get s = some false → Pending G s root g

theorem einv_start {G : Graph K} {s : Side} {cur : K → Bool} {mem : K → Info} {k : K} :
    EInv G s cur k (Gen.enter G ⟨mem, cur, []⟩ k) := by
  refine ⟨rfl, ?_, ?_⟩
  all_goals
    intro x hx hb hl
    have hxk : x = k := by
      by_cases h : x = k
      · exact h
      · have : upd cur k true x = true := hx
        rw [upd_ne _ _ h, hb] at this; cases this
    subst hxk
    simp only [Gen.enter, upd_self] at hl
    cases s <;> cases hl

theorem einv_label {G : Graph K} (hE : Even G) {s t : Side} {base : K → Bool} {root k : K} {mem : K → Info} {next : K → Bool}
    {st st' : List (Frame K)} (h : GInv G base root ⟨mem, next, ⟨k, t, []⟩ :: st⟩) (e : EInv G s base root ⟨mem, next, ⟨k, t, []⟩ :: st⟩)
    (hst : ∀ f ∈ st, f ∈ st') (hk : t = .dec → ∃ f ∈ st', f.key = k) (hch : Chain G root st') :
    EInv G s base root ⟨upd mem k ((mem k).set (result G mem t k) t), next, st'⟩ := by
  have hnd := List.nodup_cons.mp h.nodup
  have hne : ∀ f ∈ st, f.key ≠ k := fun f hf e => hnd.1 (List.mem_map.mpr ⟨f, hf, e⟩)
  have ho := h.open_ ⟨k, t, []⟩ (by simp)
  have hnone : (mem k).get t = none := by
    cases t
    · exact ho.2.mpr rfl
    · exact ho.1
  have hkeep : ∀ x b, (mem x).get s = some b → (upd mem k ((mem k).set (result G mem t k) t) x).get s = some b := by
    intro x b hx
    by_cases hxk : x = k
    · subst hxk
      rw [upd_self, get_set]
      by_cases hts : s = t
      · subst hts; rw [hnone] at hx; cases hx
      · rw [if_neg hts]; exact hx
    · rw [upd_ne _ _ hxk]; exact hx
  have hback : ∀ x b, (upd mem k ((mem k).set (result G mem t k) t) x).get s = some b →
      (mem x).get s = some b ∨ (x = k ∧ s = t ∧ result G mem t k = b) := by
    intro x b hx
    by_cases hxk : x = k
    · subst hxk
      rw [upd_self, get_set] at hx
      by_cases hts : s = t
      · rw [if_pos hts] at hx; exact .inr ⟨rfl, hts, Option.some.inj hx⟩
      · rw [if_neg hts] at hx; exact .inl hx
    · rw [upd_ne _ _ hxk] at hx; exact .inl hx
  have hnew : s = t → result G mem t k = false → Pending G s root ⟨upd mem k ((mem k).set (result G mem t k) t), next, st'⟩ := by
    intro hts hr
    have hkf : (upd mem k ((mem k).set (result G mem t k) t) k).get s = some false := by
      rw [upd_self, get_set, if_pos hts, hr]
    cases st with
    | nil =>
      have hc : k = root := e.chain
      left
      show (upd mem k _ root).get s = some false
      rw [← hc]; exact hkf
    | cons b st =>
      obtain ⟨h1, h2, _⟩ := e.chain
      have hb := h.open_ b (by simp)
      refine .inr ⟨b, hst b (by simp), ?_, k, by rw [hE.deps s .dec]; exact h2, hkf⟩
      show (upd mem k _ b.key).get s = none
      rw [upd_ne _ _ (hne b (by simp))]
      cases s
      · exact hb.2.mpr h1
      · exact hb.1
  have hp : Pending G s root ⟨mem, next, ⟨k, t, []⟩ :: st⟩ →
      Pending G s root ⟨upd mem k ((mem k).set (result G mem t k) t), next, st'⟩ := by
    rintro (h1 | ⟨b, hb, h1, d, hd, h2⟩)
    · exact .inl (hkeep _ _ h1)
    · rcases List.mem_cons.mp hb with rfl | hb
      · by_cases hts : s = t
        · refine hnew hts ?_
          cases hr : result G mem t k with
          | false => rfl
          | true => subst hts; exact absurd h2 ((result_true hr).2 d hd)
        · cases t with
          | dec =>
            obtain ⟨f, hf, hfk⟩ := hk rfl
            refine .inr ⟨f, hf, ?_, d, by rw [hfk]; exact hd, hkeep _ _ h2⟩
            show (upd mem k _ f.key).get s = none
            rw [hfk, upd_self, get_set, if_neg hts]; exact h1
          | wr =>
            cases s with
            | dec => simpa using ho.2.mp h1
            | wr => exact absurd rfl hts
      · refine .inr ⟨b, hst b hb, ?_, d, hd, hkeep _ _ h2⟩
        show (upd mem k _ b.key).get s = none
        rw [upd_ne _ _ (hne b hb)]; exact h1
  refine ⟨hch, ?_, ?_⟩
  · intro x hx hb hl
    have hdep : ∀ d ∈ G.deps s x, (mem x).get s = some true →
        (upd mem k ((mem k).set (result G mem t k) t) d).get s = some false →
        Pending G s root ⟨upd mem k ((mem k).set (result G mem t k) t), next, st'⟩ := by
      intro d hd hx' hf
      rcases hback d _ hf with h1 | ⟨_, h2, h3⟩
      · exact hp ((e.late x hx hb hx').2 d hd h1)
      · exact hnew h2 h3
    rcases hback x _ hl with h1 | ⟨h1, h2, h3⟩
    · exact ⟨(e.late x hx hb h1).1, fun d hd hf => hdep d hd h1 hf⟩
    · subst h1 h2
      refine ⟨(result_true h3).1, fun d hd hf => ?_⟩
      rcases hback d _ hf with h4 | ⟨_, _, h5⟩
      · exact absurd h4 ((result_true h3).2 d hd)
      · rw [h3] at h5; cases h5
  · intro x hx hb hl
    rcases hback x _ hl with h1 | ⟨_, h2, h3⟩
    · exact hp (e.seen x hx hb h1)
    · exact hnew h2 h3

theorem einv_step {G : Graph K} (hE : Even G) {s : Side} {base : K → Bool} {root : K} {g : Gen K} (h : GInv G base root g)
    (e : EInv G s base root g) : EInv G s base root (g.step G) := by
  obtain ⟨mem, next, stack⟩ := g
  rw [Gen.step.eq_def]
  split
  · exact e
  · rename_i k t d todo st hs
    simp only at hs
    subst hs
    split
    · rename_i hd
      have hp : Pending G s root ⟨mem, next, ⟨k, t, d :: todo⟩ :: st⟩ → Pending G s root ⟨mem, next, ⟨k, t, todo⟩ :: st⟩ := by
        rintro (h1 | ⟨b, hb, h1⟩)
        · exact .inl h1
        · rcases List.mem_cons.mp hb with rfl | hb
          · exact .inr ⟨⟨k, t, todo⟩, by simp, h1⟩
          · exact .inr ⟨b, by simp [hb], h1⟩
      exact ⟨e.chain.swap, fun x hx hb hl => ⟨(e.late x hx hb hl).1, fun d hd hf => hp ((e.late x hx hb hl).2 d hd hf)⟩,
        fun x hx hb hl => hp (e.seen x hx hb hl)⟩
    · rename_i hd
      have hd : next d = false := by simpa using hd
      have hne : ∀ {x}, next x = true → x ≠ d := by rintro x hx rfl; rw [hd] at hx; cases hx
      have hbl : (mem d) = {} := h.blank d hd
      have hmem : upd mem d {} = mem := by
        funext x
        by_cases hx : x = d
        · subst hx; rw [upd_self, hbl]
        · rw [upd_ne _ _ hx]
      have hp : Pending G s root ⟨mem, next, ⟨k, t, d :: todo⟩ :: st⟩ →
          Pending G s root (Gen.enter G ⟨mem, next, ⟨k, t, todo⟩ :: st⟩ d) := by
        simp only [Gen.enter, hmem, Pending]
        rintro (h1 | ⟨b, hb, h1⟩)
        · exact .inl h1
        · rcases List.mem_cons.mp hb with rfl | hb
          · exact .inr ⟨⟨k, t, todo⟩, by simp, h1⟩
          · exact .inr ⟨b, by simp [hb], h1⟩
      have ht : t = .dec := by
        cases t with
        | dec => rfl
        | wr =>
          exfalso
          have ho := (h.open_ ⟨k, .wr, d :: todo⟩ (by simp)).2
          have hk := (h.fresh ⟨k, .wr, d :: todo⟩ (by simp)).2
          have hw := h.within ⟨k, .wr, d :: todo⟩ (by simp) d (by simp)
          have := h.closed k .dec hk (fun hn => by simpa using ho.mp hn) d (by rw [hE.deps .dec .wr]; exact hw)
          exact hd this
      subst ht
      have hold : ∀ x b, upd next d true x = true → (mem x).get s = some b → next x = true := by
        intro x b hx hl
        by_cases hxd : x = d
        · subst hxd; rw [hbl] at hl; cases s <;> cases hl
        · rwa [upd_ne _ _ hxd] at hx
      refine ⟨⟨rfl, h.within ⟨k, .dec, d :: todo⟩ (by simp) d (by simp), e.chain.swap⟩, ?_, ?_⟩
      · intro x hx hb hl
        simp only [Gen.enter, hmem] at hx hl
        have := e.late x (hold x _ hx hl) hb hl
        refine ⟨this.1, fun y hy hf => hp (this.2 y hy ?_)⟩
        simpa only [Gen.enter, hmem] using hf
      · intro x hx hb hl
        simp only [Gen.enter, hmem] at hx hl
        exact hp (e.seen x (hold x _ hx hl) hb hl)
  · rename_i k st hs
    simp only at hs
    subst hs
    exact einv_label hE h e (fun f hf => by simp [hf]) (fun _ => ⟨⟨k, .wr, G.deps .wr k⟩, by simp, rfl⟩) e.chain.swap
  · rename_i k st hs
    simp only at hs
    subst hs
    exact einv_label hE h e (fun f hf => hf) (fun h => by cases h) e.chain.tail

omit [DecidableEq K] in
/-- When the root has no error, nothing has. -/
theorem einv_end {G : Graph K} {s : Side} {base : K → Bool} {root : K} {mem : K → Info} {next : K → Bool}
    (h : GInv G base root ⟨mem, next, []⟩) (e : EInv G s base root ⟨mem, next, []⟩)
    (hb : ∀ k, base k = true → (mem k).get s = some true ∧ ¬ Bad G s k) (hr : (mem root).get s = some true) :
    ∀ k, next k = true → (mem k).get s = some true ∧ ¬ Bad G s k := by
  have hnp : ¬ Pending G s root ⟨mem, next, []⟩ := by
    rintro (h1 | ⟨b, hb, _⟩)
    · have h1 : (mem root).get s = some false := h1
      rw [hr] at h1; cases h1
    · cases hb
  have hall : ∀ k, next k = true → (mem k).get s = some true := by
    intro k hk
    cases hkb : base k with
    | true => exact (hb k hkb).1
    | false =>
      have hf := h.full k hk (by simp) s
      cases hl : (mem k).get s with
      | none => exact absurd hl hf
      | some b =>
        cases b with
        | true => rfl
        | false => exact absurd (e.seen k hk hkb hl) hnp
  refine fun k hk => ⟨hall k hk, ?_⟩
  rintro ⟨d, hd, hu⟩
  have : next d = true ∧ G.kind s d ≠ .unsupported := by
    have hsup : ∀ x, next x = true → G.kind s x ≠ .unsupported := by
      intro x hx
      cases hxb : base x with
      | true => exact fun hu => (hb x hxb).2 ⟨x, .self, hu⟩
      | false => exact (e.late x hx hxb (hall x hx)).1
    induction hd with
    | self => exact ⟨hk, hsup k hk⟩
    | dep hd hm ih =>
      rename_i d' e'
      have hd' : next d' = true := by
        clear hu ih hm
        induction hd with
        | self => exact hk
        | dep hd hm ih => exact h.closed _ s ih (by rw [hall _ ih]; simp) _ hm
      have := h.closed d' s hd' (by rw [hall _ hd']; simp) _ hm
      exact ⟨this, hsup _ this⟩
  exact this.2 hu

/-! ### All schedules -/

/-- The lock is held. -/
def Pc.holds : Pc K → Bool
  | .locked _ => true
  | .gen _ _ _ => true
  | .stored _ => true
  | _ => false

structure Inv (G : Graph K) (σ : St K) : Prop where
  full : ∀ k, σ.cur k = true → ∀ s, (σ.mem k).get s ≠ none
  closed : ∀ k s, σ.cur k = true → ∀ d ∈ G.deps s k, σ.cur d = true
  sound : ∀ k s, σ.cur k = true → (σ.mem k).get s = some false → Bad G s k
  held : ∀ i, (σ.pc i).holds = true → σ.lock = true
  one : ∀ i j, (σ.pc i).holds = true → (σ.pc j).holds = true → i = j
  free : σ.lock = true → ∃ i, (σ.pc i).holds = true
  blank : (∀ i k n st, σ.pc i ≠ .gen k n st) → ∀ k, σ.cur k = false → σ.mem k = {}
  gen : ∀ i k n st, σ.pc i = .gen k n st → GInv G σ.cur k ⟨σ.mem, n, st⟩ ∧ (Even G → ∀ s, EInv G s σ.cur k ⟨σ.mem, n, st⟩)
  got : ∀ i k, σ.pc i = .got k ∨ σ.pc i = .stored k → σ.cur k = true
  roots : ∀ r ∈ σ.roots, σ.cur r = true
  clean : Even G → ∀ s, (∀ r ∈ σ.roots, (σ.mem r).get s = some true) → ∀ k, σ.cur k = true → (σ.mem k).get s = some true ∧ ¬ Bad G s k

omit [DecidableEq K] in
theorem setPc_self (pc : Nat → Pc K) (i : Nat) (p : Pc K) : setPc pc i p i = p := by simp [setPc]

omit [DecidableEq K] in
theorem setPc_ne (pc : Nat → Pc K) {i j : Nat} (p : Pc K) (h : j ≠ i) : setPc pc i p j = pc j := by simp [setPc, h]

omit [DecidableEq K] in
theorem inv_init (G : Graph K) : Inv G init := by
  constructor <;> simp [init, Pc.holds]

omit [DecidableEq K] in
/-- A step that changes only where the goroutine is, between places without the lock. -/
theorem inv_local {G : Graph K} {σ : St K} {i : Nat} {p : Pc K} (h : Inv G σ) (h1 : (σ.pc i).holds = false) (h2 : p.holds = false)
    (h3 : ∀ k, p = .got k → σ.cur k = true) : Inv G { σ with pc := setPc σ.pc i p } := by
  have hpc : ∀ j, (setPc σ.pc i p j).holds = true → j ≠ i ∧ (σ.pc j).holds = true := by
    intro j hj
    by_cases hji : j = i
    · subst hji; rw [setPc_self, h2] at hj; cases hj
    · rw [setPc_ne _ _ hji] at hj; exact ⟨hji, hj⟩
  refine ⟨h.full, h.closed, h.sound, fun j hj => h.held j (hpc j hj).2, fun j l hj hl => h.one j l (hpc j hj).2 (hpc l hl).2, ?_, ?_, ?_,
    ?_, h.roots, h.clean⟩
  · intro hl
    obtain ⟨j, hj⟩ := h.free hl
    have hji : j ≠ i := by rintro rfl; rw [h1] at hj; cases hj
    exact ⟨j, by show (setPc σ.pc i p j).holds = true; rw [setPc_ne _ _ hji]; exact hj⟩
  · intro hn
    refine h.blank fun j k n st hj => ?_
    have hji : j ≠ i := by rintro rfl; rw [hj] at h1; cases h1
    exact hn j k n st (by show setPc σ.pc i p j = _; rw [setPc_ne _ _ hji]; exact hj)
  · intro j k n st hj
    have hj : setPc σ.pc i p j = _ := hj
    by_cases hji : j = i
    · subst hji; rw [setPc_self] at hj; subst hj; cases h2
    · rw [setPc_ne _ _ hji] at hj; exact h.gen j k n st hj
  · intro j k hj
    by_cases hji : j = i
    · subst hji
      simp only [setPc_self] at hj
      rcases hj with rfl | rfl
      · exact h3 k rfl
      · cases h2
    · simp only [setPc_ne _ _ hji] at hj; exact h.got j k hj

omit [DecidableEq K] in
/-- A step of the generating goroutine. -/
theorem inv_gen {G : Graph K} {σ : St K} {i : Nat} {k : K} {g : Gen K} {p : Pc K} (h : Inv G σ) (hi : (σ.pc i).holds = true)
    (hp : p = .gen k g.next g.stack) (hm : ∀ x, σ.cur x = true → g.mem x = σ.mem x) (hg : GInv G σ.cur k g)
    (he : Even G → ∀ s, EInv G s σ.cur k g) : Inv G { σ with mem := g.mem, pc := setPc σ.pc i p } := by
  subst hp
  have hno : ∀ j, j ≠ i → (σ.pc j).holds = false := by
    intro j hji
    cases hj : (σ.pc j).holds with
    | false => rfl
    | true => exact absurd (h.one j i hj hi) hji
  have hpc : ∀ j, (setPc σ.pc i (.gen k g.next g.stack) j).holds = true → j = i := by
    intro j hj
    by_cases hji : j = i
    · exact hji
    · rw [setPc_ne _ _ hji, hno j hji] at hj; cases hj
  refine ⟨?_, h.closed, ?_, fun _ _ => h.held i hi, fun j l hj hl => (hpc j hj).trans (hpc l hl).symm,
    fun _ => ⟨i, by show (setPc σ.pc i _ i).holds = true; rw [setPc_self]; rfl⟩, ?_, ?_, ?_, h.roots, ?_⟩
  · intro x hx; show ∀ s, (g.mem x).get s ≠ none; rw [hm x hx]; exact h.full x hx
  · intro x s hx; show (g.mem x).get s = some false → _; rw [hm x hx]; exact h.sound x s hx
  · intro hn
    exact absurd (by show setPc σ.pc i _ i = _; exact setPc_self ..) (hn i k g.next g.stack)
  · intro j k' n st hj
    have hj : setPc σ.pc i _ j = _ := hj
    by_cases hji : j = i
    · subst hji; rw [setPc_self] at hj; cases hj
      exact ⟨hg, he⟩
    · rw [setPc_ne _ _ hji] at hj
      have := hno j hji
      rw [hj] at this; cases this
  · intro j k' hj
    by_cases hji : j = i
    · subst hji; simp only [setPc_self] at hj; rcases hj with hj | hj <;> cases hj
    · simp only [setPc_ne _ _ hji] at hj; exact h.got j k' hj
  · intro hE s hr x hx
    have hr : ∀ r ∈ σ.roots, (g.mem r).get s = some true := hr
    show (g.mem x).get s = some true ∧ _
    rw [hm x hx]
    exact h.clean hE s (fun r hr' => by rw [← hm r (h.roots r hr')]; exact hr r hr') x hx

theorem inv_move {G : Graph K} {σ τ : St K} {i : Nat} (h : Inv G σ) (m : Move G i σ τ) : Inv G τ := by
  cases m with
  | call k hc =>
    refine inv_local h ?_ rfl (fun _ e => by cases e)
    rcases hc with hc | ⟨k', hc⟩ <;> rw [hc] <;> rfl
  | hit hp hc => exact inv_local h (by rw [hp]; rfl) rfl (fun k e => by cases e; exact hc)
  | miss hp hc => exact inv_local h (by rw [hp]; rfl) rfl (fun k e => by cases e)
  | @lock k hp hl =>
    have hno : ∀ j, (σ.pc j).holds = false := by
      intro j
      cases hj : (σ.pc j).holds with
      | false => rfl
      | true => rw [h.held j hj] at hl; cases hl
    have hpc : ∀ j, (setPc σ.pc i (.locked k) j).holds = true → j = i := by
      intro j hj
      by_cases hji : j = i
      · exact hji
      · rw [setPc_ne _ _ hji, hno] at hj; cases hj
    refine ⟨h.full, h.closed, h.sound, fun _ _ => rfl, fun j l hj hl => (hpc j hj).trans (hpc l hl).symm,
      fun _ => ⟨i, by show (setPc σ.pc i _ i).holds = true; rw [setPc_self]; rfl⟩, ?_, ?_, ?_, h.roots, h.clean⟩
    · intro _
      exact h.blank fun j k n st hj => by have := hno j; rw [hj] at this; cases this
    · intro j k n st hj
      have hj : setPc σ.pc i _ j = _ := hj
      by_cases hji : j = i
      · subst hji; rw [setPc_self] at hj; cases hj
      · rw [setPc_ne _ _ hji] at hj; exact h.gen j k n st hj
    · intro j k hj
      by_cases hji : j = i
      · subst hji; simp only [setPc_self] at hj; rcases hj with hj | hj <;> cases hj
      · simp only [setPc_ne _ _ hji] at hj; exact h.got j k hj
  | @hit2 k hp hc =>
    have hi : (σ.pc i).holds = true := by rw [hp]; rfl
    have hno : ∀ j, j ≠ i → (σ.pc j).holds = false := by
      intro j hji
      cases hj : (σ.pc j).holds with
      | false => rfl
      | true => exact absurd (h.one j i hj hi) hji
    have hpc : ∀ j, (setPc σ.pc i (.got k) j).holds = false := by
      intro j
      by_cases hji : j = i
      · subst hji; rw [setPc_self]; rfl
      · rw [setPc_ne _ _ hji]; exact hno j hji
    refine ⟨h.full, h.closed, h.sound, fun j hj => ?_, fun j l hj => ?_, fun hl => (by cases hl), ?_, ?_, ?_, h.roots, h.clean⟩
    · have hj : (setPc σ.pc i (.got k) j).holds = true := hj
      rw [hpc] at hj; cases hj
    · have hj : (setPc σ.pc i (.got k) j).holds = true := hj
      rw [hpc] at hj; cases hj
    · intro _
      refine h.blank fun j k n st hj => ?_
      by_cases hji : j = i
      · subst hji; rw [hp] at hj; cases hj
      · have := hno j hji; rw [hj] at this; cases this
    · intro j k n st hj
      have hj : setPc σ.pc i _ j = _ := hj
      by_cases hji : j = i
      · subst hji; rw [setPc_self] at hj; cases hj
      · rw [setPc_ne _ _ hji] at hj; exact h.gen j k n st hj
    · intro j k' hj
      by_cases hji : j = i
      · subst hji; simp only [setPc_self] at hj
        rcases hj with hj | hj <;> cases hj
        exact hc
      · simp only [setPc_ne _ _ hji] at hj; exact h.got j k' hj
  | @start k hp hc =>
    have hi : (σ.pc i).holds = true := by rw [hp]; rfl
    have hno : ∀ j, j ≠ i → (σ.pc j).holds = false := by
      intro j hji
      cases hj : (σ.pc j).holds with
      | false => rfl
      | true => exact absurd (h.one j i hj hi) hji
    have hbl : ∀ k, σ.cur k = false → σ.mem k = {} := by
      refine h.blank fun j k n st hj => ?_
      by_cases hji : j = i
      · subst hji; rw [hp] at hj; cases hj
      · have := hno j hji; rw [hj] at this; cases this
    have hm : ∀ x, σ.cur x = true → (Gen.enter G ⟨σ.mem, σ.cur, []⟩ k).mem x = σ.mem x := by
      intro x hx
      exact upd_ne _ _ (by rintro rfl; rw [hc] at hx; cases hx)
    refine inv_gen h hi rfl hm ?_ ?_
    · exact ginv_start hc h.full h.closed hbl h.sound
    · intro _ s; exact einv_start
  | @step k n f st hp =>
    have hi : (σ.pc i).holds = true := by rw [hp]; rfl
    obtain ⟨hg, he⟩ := h.gen i k n (f :: st) hp
    exact inv_gen h hi rfl (fun x hx => step_keeps hg x hx) (ginv_step hg) (fun hE s => einv_step hE hg (he hE s))
  | @store k n hp =>
    have hi : (σ.pc i).holds = true := by rw [hp]; rfl
    obtain ⟨hg, he⟩ := h.gen i k n [] hp
    have hno : ∀ j, j ≠ i → (σ.pc j).holds = false := by
      intro j hji
      cases hj : (σ.pc j).holds with
      | false => rfl
      | true => exact absurd (h.one j i hj hi) hji
    have hpc : ∀ j, (setPc σ.pc i (.stored k) j).holds = true → j = i := by
      intro j hj
      by_cases hji : j = i
      · exact hji
      · rw [setPc_ne _ _ hji, hno j hji] at hj; cases hj
    refine ⟨fun x hx => hg.full x hx (by simp), fun x s hx => hg.closed x s hx (hg.full x hx (by simp) s), hg.sound,
      fun _ _ => h.held i hi, fun j l hj hl => (hpc j hj).trans (hpc l hl).symm,
      fun _ => ⟨i, by show (setPc σ.pc i _ i).holds = true; rw [setPc_self]; rfl⟩, fun _ => hg.blank, ?_, ?_, ?_, ?_⟩
    · intro j k' n' st hj
      have hj : setPc σ.pc i _ j = _ := hj
      by_cases hji : j = i
      · subst hji; rw [setPc_self] at hj; cases hj
      · rw [setPc_ne _ _ hji] at hj
        have := hno j hji
        rw [hj] at this; cases this
    · intro j k' hj
      by_cases hji : j = i
      · subst hji; simp only [setPc_self] at hj
        rcases hj with hj | hj <;> cases hj
        exact hg.root
      · simp only [setPc_ne _ _ hji] at hj; exact hg.sub _ (h.got j k' hj)
    · intro r hr
      rcases List.mem_cons.mp hr with rfl | hr
      · exact hg.root
      · exact hg.sub _ (h.roots r hr)
    · intro hE s hr
      exact einv_end hg (he hE s) (h.clean hE s fun r hr' => hr r (List.mem_cons_of_mem _ hr')) (hr k (List.mem_cons_self ..))
  | @unlock k hp =>
    have hi : (σ.pc i).holds = true := by rw [hp]; rfl
    have hno : ∀ j, j ≠ i → (σ.pc j).holds = false := by
      intro j hji
      cases hj : (σ.pc j).holds with
      | false => rfl
      | true => exact absurd (h.one j i hj hi) hji
    have hpc : ∀ j, (setPc σ.pc i (.got k) j).holds = false := by
      intro j
      by_cases hji : j = i
      · subst hji; rw [setPc_self]; rfl
      · rw [setPc_ne _ _ hji]; exact hno j hji
    refine ⟨h.full, h.closed, h.sound, fun j hj => ?_, fun j l hj => ?_, fun hl => (by cases hl), ?_, ?_, ?_, h.roots, h.clean⟩
    · have hj : (setPc σ.pc i (.got k) j).holds = true := hj
      rw [hpc] at hj; cases hj
    · have hj : (setPc σ.pc i (.got k) j).holds = true := hj
      rw [hpc] at hj; cases hj
    · intro _
      refine h.blank fun j k n st hj => ?_
      by_cases hji : j = i
      · subst hji; rw [hp] at hj; cases hj
      · have := hno j hji; rw [hj] at this; cases this
    · intro j k n st hj
      have hj : setPc σ.pc i _ j = _ := hj
      by_cases hji : j = i
      · subst hji; rw [setPc_self] at hj; cases hj
      · rw [setPc_ne _ _ hji] at hj; exact h.gen j k n st hj
    · intro j k' hj
      by_cases hji : j = i
      · subst hji; simp only [setPc_self] at hj
        rcases hj with hj | hj <;> cases hj
        exact h.got j k (.inr hp)
      · simp only [setPc_ne _ _ hji] at hj; exact h.got j k' hj

theorem inv_reach {G : Graph K} {σ : St K} (h : Reach G σ) : Inv G σ := by
  induction h with
  | init => exact inv_init G
  | move _ m ih => exact inv_move ih m

/-! ### C115: what a caller gets is complete and stays as it is -/

omit [DecidableEq K] in
theorem uses_cur {G : Graph K} {σ : St K} (h : Inv G σ) {s : Side} {k d : K} (hk : σ.cur k = true) (hd : Uses G s k d) : σ.cur d = true := by
  induction hd with
  | self => exact hk
  | dep _ hm ih => exact h.closed _ s ih _ hm

/-- Under every schedule: the info a caller has, and those of all types its function comes to, have both halves set. -/
theorem C115_complete {G : Graph K} {σ : St K} (h : Reach G σ) {i : Nat} {k : K} (hk : σ.pc i = .got k) {s t : Side} {d : K}
    (hd : Uses G s k d) : (σ.mem d).get t ≠ none :=
  (inv_reach h).full d (uses_cur (inv_reach h) ((inv_reach h).got i k (.inl hk)) hd) t

/-- … and no step of any goroutine changes them. -/
theorem C115_stable {G : Graph K} {σ τ : St K} (h : Reach G σ) {i j : Nat} {k : K} (hk : σ.pc i = .got k) {s : Side} {d : K}
    (hd : Uses G s k d) (m : Move G j σ τ) : τ.mem d = σ.mem d ∧ τ.cur d = true := by
  have hc := uses_cur (inv_reach h) ((inv_reach h).got i k (.inl hk)) hd
  cases m with
  | start hp hn => exact ⟨upd_ne _ _ (by rintro rfl; rw [hc] at hn; cases hn), hc⟩
  | step hp => exact ⟨step_keeps ((inv_reach h).gen j _ _ _ hp).1 d hc, hc⟩
  | store hp => exact ⟨rfl, ((inv_reach h).gen j _ _ _ hp).1.sub d hc⟩
  | _ => exact ⟨rfl, hc⟩

/-- At most one goroutine generates. -/
theorem C115_exclusive {G : Graph K} {σ : St K} (h : Reach G σ) {i j : Nat} {k l : K} {n m : K → Bool} {st st' : List (Frame K)}
    (hi : σ.pc i = .gen k n st) (hj : σ.pc j = .gen l m st') : i = j :=
  (inv_reach h).one i j (by rw [hi]; rfl) (by rw [hj]; rfl)

/-! ### C116: errors -/

/-- An error is reported only for types that contain an unsupported one. -/
theorem C116_error {G : Graph K} {σ : St K} (h : Reach G σ) {i : Nat} {k : K} (hk : σ.pc i = .got k) {s : Side}
    (he : (σ.mem k).get s = some false) : Bad G s k := (inv_reach h).sound k s ((inv_reach h).got i k (.inl hk)) he

/-- The function of a type without unsupported ones is there, and never comes to one that is not. -/
theorem C116_usable {G : Graph K} {σ : St K} (h : Reach G σ) {i : Nat} {k : K} (hk : σ.pc i = .got k) {s : Side}
    (hb : ¬ Bad G s k) : Usable G σ.mem s k := by
  intro d hd
  have hn := C115_complete h hk hd (t := s)
  have hc := uses_cur (inv_reach h) ((inv_reach h).got i k (.inl hk)) hd
  cases hl : (σ.mem d).get s with
  | none => exact absurd hl hn
  | some b =>
    cases b with
    | true => rfl
    | false =>
      obtain ⟨e, he, hu⟩ := (inv_reach h).sound d s hc hl
      exact absurd ⟨e, hd.trans he, hu⟩ hb

/-- As long as all types generated on request before were supported, the next one gets an error exactly if it contains an
unsupported type. -/
theorem C116_exact_partial {G : Graph K} (hE : Even G) {σ : St K} (h : Reach G σ) {r : K} {old : List K} (hr : σ.roots = r :: old) {s : Side}
    (ho : ∀ x ∈ old, (σ.mem x).get s = some true) : (σ.mem r).get s = some false ↔ Bad G s r := by
  have hI := inv_reach h
  have hc : σ.cur r = true := hI.roots r (by rw [hr]; simp)
  constructor
  · exact hI.sound r s hc
  · intro hb
    cases hl : (σ.mem r).get s with
    | none => exact absurd hl (hI.full r hc s)
    | some b =>
      cases b with
      | false => rfl
      | true =>
        refine absurd hb (hI.clean hE s ?_ r hc).2
        intro x hx
        rw [hr] at hx
        rcases List.mem_cons.mp hx with rfl | hx
        · exact hl
        · exact ho x hx

/-- … and while that goes on, every info is right. -/
theorem C116_clean_partial {G : Graph K} (hE : Even G) {σ : St K} (h : Reach G σ) {s : Side}
    (ho : ∀ x ∈ σ.roots, (σ.mem x).get s = some true) {i : Nat} {k : K} (hk : σ.pc i = .got k) :
    Usable G σ.mem s k ∧ ¬ Bad G s k := by
  have hI := inv_reach h
  have := (hI.clean hE s ho k (hI.got i k (.inl hk))).2
  exact ⟨C116_usable h hk this, this⟩

/-! ### Every call returns -/

/-- What can be found from a type is finite. -/
def Finitary (G : Graph K) : Prop := ∀ k, ∃ U : List K, k ∈ U ∧ ∀ x ∈ U, ∀ d ∈ G.elems x, d ∈ U

def cost (G : Graph K) (next : K → Bool) (k : K) : Nat := if next k then 0 else 2 * (G.elems k).length + 4

def costs (G : Graph K) (next : K → Bool) : List K → Nat
  | [] => 0
  | k :: U => cost G next k + costs G next U

def Frame.cost (G : Graph K) (f : Frame K) : Nat := f.todo.length + (if f.side = .dec then (G.elems f.key).length + 2 else 1)

def frames (G : Graph K) : List (Frame K) → Nat
  | [] => 0
  | f :: st => f.cost G + frames G st

theorem costs_upd_le (G : Graph K) (next : K → Bool) (d : K) (U : List K) : costs G (upd next d true) U ≤ costs G next U := by
  induction U with
  | nil => exact Nat.le_refl _
  | cons k U ih =>
    have : cost G (upd next d true) k ≤ cost G next k := by
      by_cases h : k = d
      · subst h; simp [cost, upd_self]
      · simp [cost, upd_ne _ _ h]
    simp only [costs]; omega

theorem costs_upd {G : Graph K} {next : K → Bool} {d : K} {U : List K} (hd : d ∈ U) (hn : next d = false) :
    costs G (upd next d true) U + 2 * (G.elems d).length + 4 ≤ costs G next U := by
  induction U with
  | nil => cases hd
  | cons k U ih =>
    simp only [costs]
    by_cases h : k = d
    · subst h
      have := costs_upd_le G next k U
      have h1 : cost G (upd next k true) k = 0 := by simp [cost, upd_self]
      have h2 : cost G next k = 2 * (G.elems k).length + 4 := by simp [cost, hn]
      omega
    · have hd' : d ∈ U := by
        rcases List.mem_cons.mp hd with h' | h'
        · exact absurd h'.symm h
        · exact h'
      have := ih hd'
      have h1 : cost G (upd next d true) k = cost G next k := by simp [cost, upd_ne _ _ h]
      omega

omit [DecidableEq K] in
theorem deps_elems {G : Graph K} {s : Side} {k d : K} (h : d ∈ G.deps s k) : d ∈ G.elems k := by
  rw [Graph.deps] at h
  split at h
  · exact h
  · cases h

omit [DecidableEq K] in
theorem deps_length (G : Graph K) (s : Side) (k : K) : (G.deps s k).length ≤ (G.elems k).length := by
  rw [Graph.deps]
  split
  · exact Nat.le_refl _
  · exact Nat.zero_le _

/-- So many steps of `generate`. -/
def steps (G : Graph K) : Nat → Gen K → Gen K
  | 0, g => g
  | n + 1, g => steps G n (g.step G)

theorem gen_ends {G : Graph K} {U : List K} (hU : ∀ x ∈ U, ∀ d ∈ G.elems x, d ∈ U) (n : Nat) :
    ∀ g : Gen K, (∀ f ∈ g.stack, f.key ∈ U ∧ ∀ d ∈ f.todo, d ∈ U) → costs G g.next U + frames G g.stack ≤ n →
      ∃ m, (steps G m g).stack = [] := by
  induction n with
  | zero =>
    intro g hst hc
    refine ⟨0, ?_⟩
    cases hs : g.stack with
    | nil => exact hs
    | cons f st =>
      rw [hs] at hc
      simp only [frames, Frame.cost] at hc
      split at hc <;> omega
  | succ n ih =>
    intro g hst hc
    cases hs : g.stack with
    | nil => exact ⟨0, hs⟩
    | cons f st =>
      have key : ∃ m, (steps G m (g.step G)).stack = [] := by
        apply ih
        · obtain ⟨mem, next, stack⟩ := g
          simp only at hs
          subst hs
          obtain ⟨hk, ht⟩ := hst f (by simp)
          have hr : ∀ f ∈ st, f.key ∈ U ∧ ∀ d ∈ f.todo, d ∈ U := fun f hf => hst f (by simp [hf])
          obtain ⟨k, s, todo⟩ := f
          cases todo with
          | cons d todo =>
            have hd : d ∈ U := ht d (by simp)
            have hk' : ∀ e ∈ todo, e ∈ U := fun e he => ht e (by simp [he])
            simp only [Gen.step]
            split
            · intro f hf
              rcases List.mem_cons.mp hf with rfl | hf
              · exact ⟨hk, hk'⟩
              · exact hr f hf
            · intro f hf
              rcases List.mem_cons.mp hf with rfl | hf
              · exact ⟨hd, fun e he => hU d hd e (deps_elems he)⟩
              · rcases List.mem_cons.mp hf with rfl | hf
                · exact ⟨hk, hk'⟩
                · exact hr f hf
          | nil =>
            cases s with
            | dec =>
              intro f hf
              rcases List.mem_cons.mp hf with rfl | hf
              · exact ⟨hk, fun e he => hU k hk e (deps_elems he)⟩
              · exact hr f hf
            | wr => exact hr
        · obtain ⟨mem, next, stack⟩ := g
          simp only at hs
          subst hs
          obtain ⟨hk, ht⟩ := hst f (by simp)
          obtain ⟨k, s, todo⟩ := f
          cases todo with
          | cons d todo =>
            have hd : d ∈ U := ht d (by simp)
            simp only [frames, Frame.cost, List.length_cons] at hc
            simp only [Gen.step]
            split
            · simp only [frames, Frame.cost]; omega
            · rename_i hn
              have := costs_upd (G := G) hd (by simpa using hn : next d = false)
              have h2 := deps_length G .dec d
              simp only [Gen.enter, frames, Frame.cost, if_true]
              omega
          | nil =>
            have h2 := deps_length G .wr k
            cases s with
            | dec => simp only [frames, Frame.cost, List.length_nil, if_true] at hc
                     simp only [Gen.step, frames, Frame.cost, reduceCtorEq, if_false]
                     omega
            | wr => simp only [frames, Frame.cost, List.length_nil, reduceCtorEq, if_false] at hc
                    simp only [Gen.step]
                    omega
      obtain ⟨m, hm⟩ := key
      exact ⟨m + 1, hm⟩

/-- Runs. -/
inductive Run (G : Graph K) : St K → St K → Prop
  | refl {σ : St K} : Run G σ σ
  | move {σ τ υ : St K} {i : Nat} : Move G i σ τ → Run G τ υ → Run G σ υ

theorem Run.trans {G : Graph K} {σ τ υ : St K} (h : Run G σ τ) (h2 : Run G τ υ) : Run G σ υ := by
  induction h with
  | refl => exact h2
  | move m _ ih => exact .move m (ih h2)

theorem Run.reach {G : Graph K} {σ τ : St K} (h : Run G σ τ) (hr : Reach G σ) : Reach G τ := by
  induction h with
  | refl => exact hr
  | move m _ ih => exact ih (hr.move m)

/-- The key a running call is about. -/
def Pc.wants : Pc K → Option K
  | .asked k => some k
  | .missed k => some k
  | .locked k => some k
  | .gen k _ _ => some k
  | .stored k => some k
  | _ => none

theorem gen_run {G : Graph K} {i : Nat} {k : K} (m : Nat) : ∀ {σ : St K} {n : K → Bool} {st : List (Frame K)}, σ.pc i = .gen k n st →
    (steps G m ⟨σ.mem, n, st⟩).stack = [] →
      ∃ τ n', Run G σ τ ∧ τ.pc i = .gen k n' [] ∧ ∀ j, j ≠ i → τ.pc j = σ.pc j := by
  induction m with
  | zero =>
    intro σ n st hp hs
    simp only [steps] at hs
    subst hs
    exact ⟨σ, n, .refl, hp, fun _ _ => rfl⟩
  | succ m ih =>
    intro σ n st hp hs
    cases st with
    | nil => exact ⟨σ, n, .refl, hp, fun _ _ => rfl⟩
    | cons f st =>
      have mv := Move.step (G := G) hp
      obtain ⟨τ, n', h1, h2, h3⟩ := ih (σ := { σ with
        mem := (Gen.step G ⟨σ.mem, n, f :: st⟩).mem,
        pc := setPc σ.pc i (.gen k (Gen.step G ⟨σ.mem, n, f :: st⟩).next (Gen.step G ⟨σ.mem, n, f :: st⟩).stack) }) (setPc_self ..) hs
      exact ⟨τ, n', .move mv h1, h2, fun j hj => (h3 j hj).trans (setPc_ne _ _ hj)⟩

theorem holder_run {G : Graph K} (hF : Finitary G) {σ : St K} {i : Nat} {k : K} (hw : (σ.pc i).wants = some k)
    (hh : (σ.pc i).holds = true) : ∃ τ, Run G σ τ ∧ τ.pc i = .got k ∧ τ.lock = false ∧ ∀ j, j ≠ i → τ.pc j = σ.pc j := by
  have stored : ∀ {σ : St K}, σ.pc i = .stored k → ∃ τ, Run G σ τ ∧ τ.pc i = .got k ∧ τ.lock = false ∧ ∀ j, j ≠ i → τ.pc j = σ.pc j := by
    intro σ hp
    exact ⟨_, .move (.unlock hp) .refl, setPc_self .., rfl, fun j hj => setPc_ne _ _ hj⟩
  have gen : ∀ {σ : St K} {n : K → Bool} {st : List (Frame K)}, σ.pc i = .gen k n st → 
      ∃ τ, Run G σ τ ∧ τ.pc i = .got k ∧ τ.lock = false ∧ ∀ j, j ≠ i → τ.pc j = σ.pc j := by
    intro σ n st hp
    have hU : ∃ U : List K, (∀ x ∈ U, ∀ d ∈ G.elems x, d ∈ U) ∧ ∀ f ∈ st, f.key ∈ U ∧ ∀ d ∈ f.todo, d ∈ U := by
      have one : ∀ l : List K, ∃ U : List K, (∀ x ∈ U, ∀ d ∈ G.elems x, d ∈ U) ∧ ∀ x ∈ l, x ∈ U := by
        intro l
        induction l with
        | nil => exact ⟨[], by simp, by simp⟩
        | cons a l ih =>
          obtain ⟨U, h1, h2⟩ := ih
          obtain ⟨V, h3, h4⟩ := hF a
          refine ⟨U ++ V, ?_, ?_⟩
          · intro x hx d hd
            rcases List.mem_append.mp hx with hx | hx
            · exact List.mem_append_left _ (h1 x hx d hd)
            · exact List.mem_append_right _ (h4 x hx d hd)
          · intro x hx
            rcases List.mem_cons.mp hx with rfl | hx
            · exact List.mem_append_right _ h3
            · exact List.mem_append_left _ (h2 x hx)
      obtain ⟨U, h1, h2⟩ := one (st.flatMap fun f => f.key :: f.todo)
      refine ⟨U, h1, fun f hf => ⟨h2 _ (List.mem_flatMap.mpr ⟨f, hf, by simp⟩), fun d hd => h2 _ (List.mem_flatMap.mpr ⟨f, hf, by simp [hd]⟩)⟩⟩
    obtain ⟨U, h1, h2⟩ := hU
    obtain ⟨m, hm⟩ := gen_ends h1 _ ⟨σ.mem, n, st⟩ h2 (Nat.le_refl _)
    obtain ⟨τ, n', r, hp', ho⟩ := gen_run m hp hm
    obtain ⟨υ, r2, h3, h4, h5⟩ := stored (σ := { τ with cur := n', roots := k :: τ.roots, pc := setPc τ.pc i (.stored k) }) (setPc_self ..)
    exact ⟨υ, r.trans (.move (.store hp') r2), h3, h4, fun j hj => (h5 j hj).trans ((setPc_ne _ _ hj).trans (ho j hj))⟩
  cases hp : σ.pc i with
  | locked k' =>
    rw [hp] at hw
    cases hw
    cases hc : σ.cur k with
    | true => exact ⟨_, .move (.hit2 hp hc) .refl, setPc_self .., rfl, fun j hj => setPc_ne _ _ hj⟩
    | false =>
      have mv := Move.start (G := G) hp hc
      obtain ⟨τ, r, h1, h2, h3⟩ := gen (σ := { σ with
        mem := (Gen.enter G ⟨σ.mem, σ.cur, []⟩ k).mem,
        pc := setPc σ.pc i (.gen k (Gen.enter G ⟨σ.mem, σ.cur, []⟩ k).next (Gen.enter G ⟨σ.mem, σ.cur, []⟩ k).stack) }) (setPc_self ..)
      exact ⟨τ, .move mv r, h1, h2, fun j hj => (h3 j hj).trans (setPc_ne _ _ hj)⟩
  | gen k' n st => rw [hp] at hw; cases hw; exact gen hp
  | stored k' => rw [hp] at hw; cases hw; exact stored hp
  | _ => rw [hp] at hh; cases hh

/-- From every state a call can return: the lock is never kept, a generation is finite also for recursive types. -/
theorem C115_returns {G : Graph K} (hF : Finitary G) {σ : St K} (h : Reach G σ) {i : Nat} {k : K} (hw : (σ.pc i).wants = some k) :
    ∃ τ, Run G σ τ ∧ τ.pc i = .got k := by
  have missed : ∀ {σ : St K}, Reach G σ → σ.pc i = .missed k → ∃ τ, Run G σ τ ∧ τ.pc i = .got k := by
    intro σ h hp
    have free : ∀ {σ : St K}, σ.pc i = .missed k → σ.lock = false → ∃ τ, Run G σ τ ∧ τ.pc i = .got k := by
      intro σ hp hl
      have mv := Move.lock (G := G) hp hl
      obtain ⟨τ, r, h1, _⟩ := holder_run hF (σ := { σ with lock := true, pc := setPc σ.pc i (.locked k) }) (i := i) (k := k)
        (by show (setPc σ.pc i _ i).wants = _; rw [setPc_self]; rfl) (by show (setPc σ.pc i _ i).holds = _; rw [setPc_self]; rfl)
      exact ⟨τ, .move mv r, h1⟩
    cases hl : σ.lock with
    | false => exact free hp hl
    | true =>
      obtain ⟨j, hj⟩ := (inv_reach h).free hl
      have hji : i ≠ j := by rintro rfl; rw [hp] at hj; cases hj
      obtain ⟨l, hl'⟩ : ∃ l, (σ.pc j).wants = some l := by
        cases hq : σ.pc j with
        | locked l => exact ⟨l, rfl⟩
        | gen l n st => exact ⟨l, rfl⟩
        | stored l => exact ⟨l, rfl⟩
        | _ => rw [hq] at hj; cases hj
      obtain ⟨τ, r, _, h2, h3⟩ := holder_run hF hl' hj
      obtain ⟨υ, r2, h4⟩ := free (σ := τ) ((h3 i hji).trans hp) h2
      exact ⟨υ, r.trans r2, h4⟩
  cases hp : σ.pc i with
  | asked k' =>
    rw [hp] at hw
    cases hw
    cases hc : σ.cur k with
    | true => exact ⟨_, .move (.hit hp hc) .refl, setPc_self ..⟩
    | false =>
      have mv := Move.miss (G := G) hp hc
      obtain ⟨τ, r, h1⟩ := missed (h.move mv) (setPc_self ..)
      exact ⟨τ, .move mv r, h1⟩
  | missed k' => rw [hp] at hw; cases hw; exact missed h hp
  | locked k' =>
    obtain ⟨τ, r, h1, _⟩ := holder_run hF hw (by rw [hp]; rfl)
    exact ⟨τ, r, h1⟩
  | gen k' n st =>
    obtain ⟨τ, r, h1, _⟩ := holder_run hF hw (by rw [hp]; rfl)
    exact ⟨τ, r, h1⟩
  | stored k' =>
    obtain ⟨τ, r, h1, _⟩ := holder_run hF hw (by rw [hp]; rfl)
    exact ⟨τ, r, h1⟩
  | _ => rw [hp] at hw; cases hw

/-! ### Runs of one goroutine -/

/-- The step goroutine `i` can do in a call. -/
def auto (G : Graph K) (i : Nat) (σ : St K) : St K :=
  match σ.pc i with
  | .asked k => if σ.cur k then { σ with pc := setPc σ.pc i (.got k) } else { σ with pc := setPc σ.pc i (.missed k) }
  | .missed k => if σ.lock then σ else { σ with lock := true, pc := setPc σ.pc i (.locked k) }
  | .locked k =>
    if σ.cur k then { σ with lock := false, pc := setPc σ.pc i (.got k) }
    else { σ with mem := (Gen.enter G ⟨σ.mem, σ.cur, []⟩ k).mem,
                  pc := setPc σ.pc i (.gen k (Gen.enter G ⟨σ.mem, σ.cur, []⟩ k).next (Gen.enter G ⟨σ.mem, σ.cur, []⟩ k).stack) }
  | .gen k next [] => { σ with cur := next, roots := k :: σ.roots, pc := setPc σ.pc i (.stored k) }
  | .gen k next (f :: st) =>
    { σ with mem := (Gen.step G ⟨σ.mem, next, f :: st⟩).mem,
             pc := setPc σ.pc i (.gen k (Gen.step G ⟨σ.mem, next, f :: st⟩).next (Gen.step G ⟨σ.mem, next, f :: st⟩).stack) }
  | .stored k => { σ with lock := false, pc := setPc σ.pc i (.got k) }
  | _ => σ

theorem auto_reach {G : Graph K} {i : Nat} {σ : St K} (h : Reach G σ) : Reach G (auto G i σ) := by
  rw [auto.eq_def]
  split
  · rename_i hp
    split
    · rename_i hc; exact h.move (.hit hp hc)
    · rename_i hc; exact h.move (.miss hp (by simpa using hc))
  · rename_i hp
    split
    · exact h
    · rename_i hc; exact h.move (.lock hp (by simpa using hc))
  · rename_i hp
    split
    · rename_i hc; exact h.move (.hit2 hp hc)
    · rename_i hc; exact h.move (.start hp (by simpa using hc))
  · rename_i hp; exact h.move (.store hp)
  · rename_i hp; exact h.move (.step hp)
  · rename_i hp; exact h.move (.unlock hp)
  · exact h

def autos (G : Graph K) (i : Nat) : Nat → St K → St K
  | 0, σ => σ
  | n + 1, σ => autos G i n (auto G i σ)

theorem autos_reach {G : Graph K} {i : Nat} (n : Nat) : ∀ {σ : St K}, Reach G σ → Reach G (autos G i n σ) := by
  induction n with
  | zero => exact id
  | succ n ih => exact fun h => ih (auto_reach h)

/-- Calls of `info`, one after another, by goroutine 0, given `n` steps each. -/
def queries (G : Graph K) (n : Nat) : List K → St K → St K
  | [], σ => σ
  | k :: l, σ => queries G n l (autos G 0 n { σ with pc := setPc σ.pc 0 (.asked k) })

/-- Whether goroutine 0 is between calls. -/
def resting (σ : St K) : Bool :=
  match σ.pc 0 with
  | .idle => true
  | .got _ => true
  | _ => false

def restings (G : Graph K) (n : Nat) : List K → St K → Bool
  | [], _ => true
  | k :: l, σ => resting σ && restings G n l (autos G 0 n { σ with pc := setPc σ.pc 0 (.asked k) })

theorem queries_reach {G : Graph K} {n : Nat} (l : List K) : ∀ {σ : St K}, Reach G σ → restings G n l σ = true → Reach G (queries G n l σ) := by
  induction l with
  | nil => exact fun h _ => h
  | cons k l ih =>
    intro σ h hr
    rw [restings, Bool.and_eq_true] at hr
    refine ih (autos_reach n (h.move (.call k ?_))) hr.2
    have := hr.1
    rw [resting] at this
    split at this
    · rename_i hp; exact .inl hp
    · rename_i k' hp; exact .inr ⟨k', hp⟩
    · cases this

def gotKey (σ : St K) (k : K) : Bool :=
  match σ.pc 0 with
  | .got k' => k' = k
  | _ => false

theorem of_gotKey {σ : St K} {k : K} (h : gotKey σ k = true) : σ.pc 0 = .got k := by
  rw [gotKey] at h
  split at h
  · rename_i hp; rw [hp, of_decide_eq_true h]
  · cases h

/-! ### C116: where it fails -/

/-- `type T struct { X *T; Y chan int }`: 0 is `T`, 1 is `*T`, 2 is `chan int`. -/
def recChan : Graph (Fin 3) where
  kind := fun _ k => if k = 2 then .unsupported else .node
  elems := fun k => if k = 0 then [1, 2] else if k = 1 then [0] else []

theorem recChan_bad (s : Side) : Bad recChan s 1 := by
  refine ⟨2, Uses.dep (Uses.dep .self (e := 0) ?_) ?_, rfl⟩ <;> cases s <;> decide

/-- Whether a type gets an error depends on what was asked before: asked first, `*T` gets an error; asked after `T`, it gets a
function, and this one comes to the function of `T`, which is not there (a nil function is called). -/
theorem C116_order_refuted :
    (∃ σ, Reach recChan σ ∧ σ.pc 0 = .got 1 ∧ ∀ s, (σ.mem 1).get s = some false) ∧
    (∃ σ, Reach recChan σ ∧ σ.pc 0 = .got 1 ∧ ∀ s, Bad recChan s 1 ∧ (σ.mem 1).get s = some true ∧ ¬ Usable recChan σ.mem s 1) := by
  refine ⟨⟨queries recChan 40 [1] init, queries_reach _ .init (by decide +kernel), of_gotKey (by decide +kernel), ?_⟩,
    ⟨queries recChan 40 [0, 1] init, queries_reach _ .init (by decide +kernel), of_gotKey (by decide +kernel), ?_⟩⟩
  · intro s; cases s <;> decide +kernel
  · intro s
    refine ⟨recChan_bad s, by cases s <;> decide +kernel, fun hu => ?_⟩
    have h0 : ((queries recChan 40 [0, 1] init).mem 0).get s = some false := by cases s <;> decide +kernel
    have := hu 0 (Uses.dep .self (by cases s <;> decide))
    rw [h0] at this; cases this

/-- 0 is a struct of 1 and 2; 1 has its own decoder and is a struct of 3; 2 is a struct of 3; 3 is a struct of 2 and 4; 4 has its own
writer but cannot be decoded.  -/
def oneSided : Graph (Fin 5) where
  kind := fun s k => if k = 4 then (if s = .dec then .unsupported else .leaf) else if k = 1 ∧ s = .dec then .leaf else .node
  elems := fun k => if k = 0 then [1, 2] else if k = 1 then [3] else if k = 2 then [3] else if k = 3 then [2, 4] else []

/-- With types that have only one of the methods, even the first type asked for may get a function that comes to one that is not there. -/
theorem C116_oneSided_refuted : ∃ σ, Reach oneSided σ ∧ σ.pc 0 = .got 0 ∧ σ.roots = [0] ∧ Bad oneSided .dec 0 ∧
    (σ.mem 0).get .dec = some true ∧ ¬ Usable oneSided σ.mem .dec 0 := by
  refine ⟨queries oneSided 80 [0] init, queries_reach _ .init (by decide +kernel), of_gotKey (by decide +kernel), by decide +kernel, ?_,
    by decide +kernel, fun hu => ?_⟩
  · exact ⟨4, Uses.dep (Uses.dep (Uses.dep .self (e := 2) (by decide)) (e := 3) (by decide)) (by decide), rfl⟩
  · have h3 : ((queries oneSided 80 [0] init).mem 3).get .dec = some false := by decide +kernel
    have := hu 3 (Uses.dep (Uses.dep .self (e := 2) (by decide)) (by decide))
    rw [h3] at this; cases this

/-! ### Examples -/

/-- `type T struct { X *T; Y uint64 }` -/
def recOk : Graph (Fin 3) where
  kind := fun _ k => if k = 2 then .leaf else .node
  elems := fun k => if k = 0 then [1, 2] else if k = 1 then [0] else []

/-- A recursive type gets both functions. -/
example : ∃ σ, Reach recOk σ ∧ σ.pc 0 = .got 0 ∧ Usable recOk σ.mem .dec 0 ∧ (σ.mem 1).get .wr = some true := by
  refine ⟨queries recOk 40 [0] init, queries_reach _ .init (by decide +kernel), of_gotKey (by decide +kernel), ?_, by decide +kernel⟩
  refine C116_usable (i := 0) (queries_reach _ .init (by decide +kernel)) (of_gotKey (by decide +kernel)) ?_
  rintro ⟨d, _, h⟩
  exact (by decide : ∀ d, recOk.kind .dec d ≠ .unsupported) d h

example : Even recOk ∧ Even recChan ∧ ¬ Even oneSided := by
  refine ⟨fun k => Iff.rfl, fun k => Iff.rfl, fun h => ?_⟩
  have := (h 1).mpr rfl
  cases this

example : Finitary recChan := fun k => ⟨[0, 1, 2], by revert k; decide, by decide⟩

end Verif.Rlp.Cache
