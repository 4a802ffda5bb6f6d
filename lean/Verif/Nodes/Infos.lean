import Verif.Nodes.SetProps
import Verif.Merkle.Spec
import Verif.Hex.Props

/-!
# Chain infos: order, hash, administrators (/repo/chaininfo.go:184-216, 638-732, 856-932, 994-1025)

The lists of `ChainInfos` have no nil (the nil list and the empty one are the same); `sort.Slice` and `sort.Sort` leave any ascending
rearrangement (`SortOf`).  The codec of go-rtl is a parameter (`enc`, `enc0`), and so is the hash.
-/

namespace Verif.Nodes
open Verif

/-- `ChainInfos` (/repo/chaininfo.go:184-200). -/
structure Infos where
  cs : ChainStruct
  coin : UInt16
  coinName : Bytes
  haveCoin : Bool
  admins : List Bytes
  comm : List Bytes
  boots : List Server
  election : UInt8
  chainVersion : Bytes
  sync : Bool
  genesis : List Bytes
  datas : List Bytes
  attrs : List Bytes
  auditors : List Bytes
  version : UInt16
deriving DecidableEq

/-- `chainInfosV0` (/repo/chaininfo.go:202-216). -/
structure Infos0 where
  cs : ChainStruct
  coin : UInt16
  coinName : Bytes
  haveCoin : Bool
  admins : List Bytes
  comm : List Bytes
  boots : List Server
  election : UInt8
  chainVersion : Bytes
  sync : Bool
  genesis : List Bytes
  datas : List Bytes
  attrs : List Bytes
deriving DecidableEq

/-- /repo/chaininfo.go:994-1006 `Dataserver.Compare`. -/
def serverCompare (d o : Server) : Int :=
  if d = o then 0
  else if d.chain = o.chain then bytesCompare d.nid o.nid
  else if d.chain < o.chain then -1
  else 1

/-- An ascending rearrangement: what `sort.Slice` and `sort.Sort` promise. -/
def Arranged {α : Type} (cmp : α → α → Int) (l l' : List α) : Prop := l'.Perm l ∧ l'.Pairwise fun a b => ¬ cmp b a < 0

/-- /repo/chaininfo.go:856-884 `ChainInfos.Sort`. -/
def SortOf (c c' : Infos) : Prop :=
  Arranged bytesCompare c.admins c'.admins ∧ Arranged serverCompare c.boots c'.boots ∧ Arranged bytesCompare c.genesis c'.genesis ∧
    Arranged bytesCompare c.datas c'.datas ∧ Arranged bytesCompare c.attrs c'.attrs ∧ Arranged bytesCompare c.auditors c'.auditors ∧
    c' = { c with admins := c'.admins, boots := c'.boots, genesis := c'.genesis, datas := c'.datas, attrs := c'.attrs,
                  auditors := c'.auditors }

/-- `ChainInfos.Sort` with the insertion sort that `sort.Slice` and `sort.Sort` use for up to 12 elements. -/
def Infos.sort (c : Infos) : Infos :=
  { c with admins := sortCmp bytesCompare c.admins, boots := sortCmp serverCompare c.boots, genesis := sortCmp bytesCompare c.genesis,
           datas := sortCmp bytesCompare c.datas, attrs := sortCmp bytesCompare c.attrs, auditors := sortCmp bytesCompare c.auditors }

/-- /repo/chaininfo.go:913-928: the fields of version 0. -/
def Infos.v0 (c : Infos) : Infos0 :=
  ⟨c.cs, c.coin, c.coinName, c.haveCoin, c.admins, c.comm, c.boots, c.election, c.chainVersion, c.sync, c.genesis, c.datas, c.attrs⟩

/-- /repo/chaininfo.go:907-933 `ChainInfos.HashValue`; `EncodeAndHash` is the hash of the encoding. -/
def Infos.hash (H : Bytes → Bytes) (enc : Infos → Bytes) (enc0 : Infos0 → Bytes) (c : Infos) : Bytes :=
  if c.version = 0 then H (enc0 c.v0) else H (enc c)

/-- /repo/basic.go:1309-1320 `AddressFromPubSlice`; the hash has 32 bytes. -/
def addressFromPub (H : Bytes → Bytes) : Bytes → Option Bytes
  | [] => none
  | b :: r => if b = 4 then some ((H r).drop 12) else none

/-- /repo/chaininfo.go:699-713 `AddrIsAdmin`. -/
def addrIsAdmin (H : Bytes → Bytes) : List Bytes → Bytes → Bool
  | [], _ => false
  | p :: ps, a => match addressFromPub H p with
    | none => addrIsAdmin H ps a
    | some x => if x = a then true else addrIsAdmin H ps a

/-- /repo/chaininfo.go:715-728 `PubIsAdmin`. -/
def pubIsAdmin : List Bytes → Bytes → Bool
  | [], _ => false
  | p :: ps, k => if p.length = 0 then pubIsAdmin ps k else if p = k then true else pubIsAdmin ps k

/-- /repo/chaininfo.go:693-697 `IsGenesisDataNode`; the map of `NodeIDs.ToMap` (/repo/basic.go:499-507). -/
def isGenesis (c : Infos) (nid : Bytes) : Bool := decide (nid ∈ setAddAll [] c.genesis)

/-- /repo/chaininfo.go:670-675 `ReportTo`. -/
def reportTo (s : ChainStruct) : UInt32 := if s.parent = Num.nilChainID then Num.nilChainID else 0

/-- /repo/chaininfo.go:1017-1025 `Dataserver.Validation`. -/
def Server.valid (d : Server) : Bool :=
  if d.nid.length ≠ 128 ∨ d.ip.length = 0 then false
  else if d.basic = 0 ∨ d.cons0 = 0 ∨ d.cons1 = 0 then false
  else true

/-- /repo/chaininfo.go:1008-1010 `GetNodeID`, with `ParseNodeID` (/repo/basic.go:290-296) and `ParseNodeIDBytes` (280-288). -/
def Server.nodeId (d : Server) : Option Bytes :=
  match Hex.hexDecode d.nid with
  | (b, true) => some (List.replicate (64 - b.length) 0 ++ b.drop (b.length - 64))
  | (_, false) => none

/-- The part of a boot node that `AddBootNode` looks at. -/
def Server.boot (d : Server) : Boot := ⟨d.nid, d.chain⟩

/-! ### Comparisons -/

theorem bytesCompare_le_iff (a b : Bytes) : ¬ bytesCompare b a < 0 ↔ bytesCompare a b ≤ 0 := by
  rw [bytesCompare_lawful.flip]; omega

/-- Before or the same in chain id and node id. -/
theorem serverCompare_le_iff (d o : Server) : ¬ serverCompare o d < 0 ↔
    d.chain < o.chain ∨ (d.chain = o.chain ∧ bytesCompare d.nid o.nid ≤ 0) := by
  unfold serverCompare
  split
  · rename_i h; subst h; simp [bytesCompare_lawful.refl]
  · split
    · rename_i h; rw [bytesCompare_le_iff]; constructor
      · exact fun h' => Or.inr ⟨h.symm, h'⟩
      · rintro (h' | h')
        · omega
        · exact h'.2
    · split <;> constructor <;> intro h <;> omega

theorem serverCompare_le_iff' (d o : Server) : serverCompare d o ≤ 0 ↔
    d.chain < o.chain ∨ (d.chain = o.chain ∧ bytesCompare d.nid o.nid ≤ 0) := by
  unfold serverCompare
  split
  · rename_i h; subst h; simp [bytesCompare_lawful.refl]
  · split
    · rename_i h; constructor
      · exact fun h' => Or.inr ⟨h, h'⟩
      · rintro (h' | h')
        · omega
        · exact h'.2
    · split <;> constructor <;> intro h <;> omega

theorem arranged_bytes {l l' : List Bytes} (h : Arranged bytesCompare l l') : l' = sortCmp bytesCompare l :=
  sortCmp_unique bytesCompare_lawful h.1 (h.2.imp fun h => (bytesCompare_le_iff _ _).1 h)

theorem arranged_sortCmp (l : List Bytes) : Arranged bytesCompare l (sortCmp bytesCompare l) :=
  ⟨sortCmp_perm l, (sortCmp_sorted bytesCompare_lawful l).imp fun h => (bytesCompare_le_iff _ _).2 h⟩

theorem arranged_servers (l : List Server) : Arranged serverCompare l (sortCmp serverCompare l) := by
  refine ⟨sortCmp_perm l, ?_⟩
  have h1 : Std.Total fun a b => serverCompare a b ≤ 0 := by
    refine ⟨fun a b => ?_⟩
    rw [serverCompare_le_iff', serverCompare_le_iff']
    rcases lt_trichotomy a.chain b.chain with h | h | h
    · exact Or.inl (Or.inl h)
    · rcases bytesCompare_lawful.le_total a.nid b.nid with h' | h'
      · exact Or.inl (Or.inr ⟨h, h'⟩)
      · exact Or.inr (Or.inr ⟨h.symm, h'⟩)
    · exact Or.inr (Or.inl h)
  have h2 : IsTrans Server fun a b => serverCompare a b ≤ 0 := by
    refine ⟨fun a b c hab hbc => ?_⟩
    rw [serverCompare_le_iff'] at hab hbc ⊢
    rcases hab with h | ⟨h, h'⟩ <;> rcases hbc with k | ⟨k, k'⟩
    · left; omega
    · left; omega
    · left; omega
    · exact Or.inr ⟨h.trans k, bytesCompare_lawful.le_trans h' k'⟩
  have := List.pairwise_insertionSort (fun a b => serverCompare a b ≤ 0) l
  refine this.imp fun {a b} h => ?_
  rw [serverCompare_le_iff, ← serverCompare_le_iff']
  exact h

/-! ## C131 chain infos -/

/-- The same content, up to the order of the lists that are sets: administrators, boot nodes, data nodes, attributes, auditors. -/
def SameContent (c d : Infos) : Prop :=
  c.cs = d.cs ∧ c.coin = d.coin ∧ c.coinName = d.coinName ∧ c.haveCoin = d.haveCoin ∧ c.comm = d.comm ∧ c.election = d.election ∧
    c.chainVersion = d.chainVersion ∧ c.sync = d.sync ∧ c.version = d.version ∧ c.admins.Perm d.admins ∧ c.boots.Perm d.boots ∧
    c.genesis.Perm d.genesis ∧ c.datas.Perm d.datas ∧ c.attrs.Perm d.attrs ∧ c.auditors.Perm d.auditors

/-- No two boot nodes with the same chain and node id that differ otherwise. -/
def DistinctBoots (l : List Server) : Prop := ∀ a ∈ l, ∀ b ∈ l, a.chain = b.chain → a.nid = b.nid → a = b

/-- **C131, sorting** changes nothing but the order, and the insertion sort is one way to do it. -/
theorem C131_sorted (c : Infos) : SortOf c c.sort ∧ ∀ c', SortOf c c' → SameContent c c' := by
  constructor
  · exact ⟨arranged_sortCmp _, arranged_servers _, arranged_sortCmp _, arranged_sortCmp _, arranged_sortCmp _, arranged_sortCmp _, rfl⟩
  · rintro c' ⟨h1, h2, h3, h4, h5, h6, h7⟩
    rw [h7]
    exact ⟨rfl, rfl, rfl, rfl, rfl, rfl, rfl, rfl, rfl, h1.1.symm, h2.1.symm, h3.1.symm, h4.1.symm, h5.1.symm, h6.1.symm⟩

/-- **C131, one form:** infos with the same content are equal after sorting, whatever the algorithm does, and so are their hashes, if
boot nodes with the same chain and node id are the same. -/
theorem C131_canonical_partial {c d c' d' : Infos} (h : SameContent c d) (hb : DistinctBoots c.boots) (hc : SortOf c c') (hd : SortOf d d') :
    c' = d' := by
  obtain ⟨e1, e2, e3, e4, e5, e6, e7, e8, e9, p1, p2, p3, p4, p5, p6⟩ := h
  obtain ⟨a1, a2, a3, a4, a5, a6, a7⟩ := hc
  obtain ⟨b1, b2, b3, b4, b5, b6, b7⟩ := hd
  have key : ∀ {l l' m m' : List Bytes}, l.Perm m → Arranged bytesCompare l l' → Arranged bytesCompare m m' → l' = m' := by
    intro l l' m m' hp hl hm
    rw [arranged_bytes hl]
    exact (arranged_bytes ⟨hm.1.trans hp.symm, hm.2⟩).symm
  have hboots : c'.boots = d'.boots := by
    apply List.Perm.eq_of_pairwise (le := fun a b => ¬ serverCompare b a < 0) _ a2.2 b2.2 (a2.1.trans (p2.trans b2.1.symm))
    intro a b ha hb' h1 h2
    rw [serverCompare_le_iff] at h1 h2
    have hchain : a.chain = b.chain := by omega
    have ha' : a ∈ c.boots := a2.1.mem_iff.1 ha
    have hb'' : b ∈ c.boots := p2.mem_iff.2 (b2.1.mem_iff.1 hb')
    refine hb a ha' b hb'' hchain (bytesCompare_lawful.le_antisymm ?_ ?_)
    · rcases h1 with h1 | h1
      · omega
      · exact h1.2
    · rcases h2 with h2 | h2
      · omega
      · exact h2.2
  rw [a7, b7, e1, e2, e3, e4, e5, e6, e7, e8, e9, key p1 a1 b1, hboots, key p3 a3 b3, key p4 a4 b4, key p5 a5 b5, key p6 a6 b6]

/-- Two boot nodes of one chain with the same node id and different ports. -/
def sampleBoots : List Server := [⟨1, [97], [49], 1, 1, 1, 1, 1, 1⟩, ⟨1, [97], [49], 2, 1, 1, 1, 1, 1⟩]

/-- Infos with given boot nodes, and otherwise empty. -/
def infosWith (boots : List Server) : Infos :=
  { cs := ⟨1, 0, .branch⟩, coin := 0, coinName := [], haveCoin := false, admins := [], comm := [], boots := boots, election := 0,
    chainVersion := [], sync := false, genesis := [], datas := [], attrs := [], auditors := [], version := 0 }

/-- C131 fails: two boot nodes with the same node id keep the order they came in, so infos with the same content stay different, and
(with a lawful codec) so does what is hashed. -/
theorem C131_canonical_refuted : SameContent (infosWith sampleBoots) (infosWith sampleBoots.reverse) ∧
    (infosWith sampleBoots).sort ≠ (infosWith sampleBoots.reverse).sort ∧
    (infosWith sampleBoots).sort.v0 ≠ (infosWith sampleBoots.reverse).sort.v0 := by
  refine ⟨⟨rfl, rfl, rfl, rfl, rfl, rfl, rfl, rfl, rfl, .nil, (List.reverse_perm _).symm, .nil, .nil, .nil, .nil⟩, ?_, ?_⟩ <;> decide +kernel

/-- **C131, hash of the current version:** it covers everything. -/
theorem C131_hash (H : Bytes → Bytes) (enc : Infos → Bytes) (enc0 : Infos0 → Bytes) (he : Function.Injective enc) (c d : Infos)
    (hc : c.version ≠ 0) (hd : d.version ≠ 0) (h : c.hash H enc enc0 = d.hash H enc enc0) :
    c = d ∨ Merkle.Collision H [enc c] [enc d] := by
  unfold Infos.hash at h
  rw [if_neg hc, if_neg hd] at h
  by_cases e : c = d
  · exact Or.inl e
  · exact Or.inr ⟨_, List.mem_singleton.2 rfl, _, List.mem_singleton.2 rfl, fun e' => e (he e'), h⟩

/-- **C131, hash of version 0:** it covers everything except the auditors. -/
theorem C131_hash_partial (H : Bytes → Bytes) (enc : Infos → Bytes) (enc0 : Infos0 → Bytes) (he : Function.Injective enc0) (c d : Infos)
    (hc : c.version = 0) (hd : d.version = 0) (h : c.hash H enc enc0 = d.hash H enc enc0) :
    { c with auditors := d.auditors } = d ∨ Merkle.Collision H [enc0 c.v0] [enc0 d.v0] := by
  unfold Infos.hash at h
  rw [if_pos hc, if_pos hd] at h
  by_cases e : c.v0 = d.v0
  · left
    cases c; cases d
    simp only [Infos.v0, Infos0.mk.injEq] at e
    simp only at hc hd
    simp only [e, hc, hd]
  · exact Or.inr ⟨_, List.mem_singleton.2 rfl, _, List.mem_singleton.2 rfl, fun e' => e (he e'), h⟩

/-- C131 fails: the hash of version 0 does not cover the auditors, who count nevertheless. -/
theorem C131_auditors_refuted (H : Bytes → Bytes) (enc : Infos → Bytes) (enc0 : Infos0 → Bytes) : ∃ c d : Infos,
    c.hash H enc enc0 = d.hash H enc enc0 ∧ auditorIds id c.genesis c.datas c.auditors ≠ auditorIds id d.genesis d.datas d.auditors :=
  ⟨infosWith [], { infosWith [] with auditors := [[7]] }, rfl, by decide +kernel⟩

theorem addrIsAdmin_iff (H : Bytes → Bytes) (l : List Bytes) (a : Bytes) : addrIsAdmin H l a = true ↔ ∃ r, 4 :: r ∈ l ∧ (H r).drop 12 = a := by
  induction l with
  | nil => simp [addrIsAdmin]
  | cons p ps ih =>
    rw [addrIsAdmin]
    cases p with
    | nil => simp only [addressFromPub]; rw [ih]; simp
    | cons b r =>
      simp only [addressFromPub]
      by_cases hb : b = 4
      · subst hb
        simp only [if_true]
        by_cases hr : List.drop 12 (H r) = a
        · simp only [if_pos hr, true_iff]
          exact ⟨r, List.mem_cons_self, hr⟩
        · simp only [if_neg hr]
          rw [ih]
          constructor
          · rintro ⟨r', h1, h2⟩; exact ⟨r', List.mem_cons_of_mem _ h1, h2⟩
          · rintro ⟨r', h1, h2⟩
            rcases List.mem_cons.1 h1 with h1 | h1
            · rw [List.cons.injEq] at h1; rw [h1.2] at h2; exact absurd h2 hr
            · exact ⟨r', h1, h2⟩
      · simp only [if_neg hb]
        rw [ih]
        constructor
        · rintro ⟨r', h1, h2⟩; exact ⟨r', List.mem_cons_of_mem _ h1, h2⟩
        · rintro ⟨r', h1, h2⟩
          rcases List.mem_cons.1 h1 with h1 | h1
          · rw [List.cons.injEq] at h1; exact absurd h1.1.symm hb
          · exact ⟨r', h1, h2⟩

theorem pubIsAdmin_iff (l : List Bytes) (k : Bytes) : pubIsAdmin l k = true ↔ k ∈ l ∧ k ≠ [] := by
  induction l with
  | nil => simp [pubIsAdmin]
  | cons p ps ih =>
    rw [pubIsAdmin]
    by_cases h0 : p.length = 0
    · rw [if_pos h0, ih, List.length_eq_zero_iff.1 h0]
      constructor
      · exact fun h => ⟨List.mem_cons_of_mem _ h.1, h.2⟩
      · rintro ⟨h1, h2⟩
        rcases List.mem_cons.1 h1 with h1 | h1
        · exact absurd h1 h2
        · exact ⟨h1, h2⟩
    · rw [if_neg h0]
      by_cases hp : p = k
      · subst hp
        simp only [if_true, List.mem_cons_self, true_and, true_iff]
        rintro rfl; exact h0 rfl
      · rw [if_neg hp, ih, List.mem_cons]
        constructor
        · exact fun h => ⟨Or.inr h.1, h.2⟩
        · rintro ⟨h1 | h1, h2⟩
          · exact absurd h1.symm hp
          · exact ⟨h1, h2⟩

/-- **C131, administrators:** the key of an administrator is recognised, and for keys in the uncompressed format its address too; the
address of any other key is not, unless 20 bytes of the hashes of two keys agree. -/
theorem C131_admin_partial (H : Bytes → Bytes) (c : Infos) (r : Bytes) :
    (pubIsAdmin c.admins (4 :: r) = true ↔ 4 :: r ∈ c.admins) ∧
      (pubIsAdmin c.admins (4 :: r) = true → addressFromPub H (4 :: r) = some ((H r).drop 12) ∧ addrIsAdmin H c.admins ((H r).drop 12) = true) ∧
      (addrIsAdmin H c.admins ((H r).drop 12) = true → pubIsAdmin c.admins (4 :: r) = true ∨
        ∃ r', 4 :: r' ∈ c.admins ∧ r' ≠ r ∧ (H r').drop 12 = (H r).drop 12) := by
  refine ⟨?_, ?_, ?_⟩
  · rw [pubIsAdmin_iff]; simp
  · intro h
    rw [pubIsAdmin_iff] at h
    exact ⟨by simp [addressFromPub], (addrIsAdmin_iff H _ _).2 ⟨r, h.1, rfl⟩⟩
  · intro h
    obtain ⟨r', h1, h2⟩ := (addrIsAdmin_iff H _ _).1 h
    by_cases e : r' = r
    · left; rw [pubIsAdmin_iff, ← e]; exact ⟨h1, by simp⟩
    · exact Or.inr ⟨r', h1, e, h2⟩

/-- C131 fails: an administrator whose key is in another format (compressed, first byte 2) is recognised by key and by no address. -/
theorem C131_admin_refuted (H : Bytes → Bytes) : ∃ c : Infos, ∃ k, pubIsAdmin c.admins k = true ∧ ∀ a, addrIsAdmin H c.admins a = false :=
  ⟨{ infosWith [] with admins := [[2, 1]] }, [2, 1], by decide +kernel, fun a => by
    rw [Bool.eq_false_iff, Ne, addrIsAdmin_iff]; simp⟩

theorem lowerBound_mem_le {l : List Bytes} (hs : l.Pairwise fun a b => bytesCompare a b ≤ 0) (x : Bytes) :
    l[lowerBound bytesCompare l x]? = some x ↔ x ∈ l := by
  have L := bytesCompare_lawful
  constructor
  · intro h; exact List.mem_of_getElem? h
  · intro h
    obtain ⟨i, hi, rfl⟩ := List.getElem_of_mem h
    obtain ⟨h1, h2⟩ := lowerBound_spec L hs l[i]
    have h3 := (h2 i l[i] (List.getElem?_eq_getElem hi)).1 (by rw [L.refl])
    have hlt : lowerBound bytesCompare l l[i] < l.length := by omega
    rw [List.getElem?_eq_getElem hlt, Option.some.injEq]
    have h4 := (h2 _ _ (List.getElem?_eq_getElem hlt)).2 (Nat.le_refl _)
    have h5 : bytesCompare l[lowerBound bytesCompare l l[i]] l[i] ≤ 0 := by
      rcases Nat.lt_or_eq_of_le h3 with h6 | h6
      · exact List.pairwise_iff_getElem.1 hs _ i hlt hi h6
      · simp only [h6, L.refl, le_refl]
    exact (L.eq _ _).1 (by omega)

/-- **C131, answers:** sorting does not change what the infos say of members, and after it data nodes are found. -/
theorem C131_answers (H : Bytes → Bytes) {c c' : Infos} (h : SortOf c c') (x : Bytes) :
    (addrIsAdmin H c'.admins x = addrIsAdmin H c.admins x) ∧ (pubIsAdmin c'.admins x = pubIsAdmin c.admins x) ∧
      (isGenesis c' x = true ↔ x ∈ c.genesis) ∧ (attrContains c'.attrs x = true ↔ x ∈ c.attrs) ∧ (hasData c'.datas x = true ↔ x ∈ c.datas) ∧
      (∀ o : List Bytes → List Bytes, (∀ l, (o l).Perm l) →
        auditorIds o c'.genesis c'.datas c'.auditors = auditorIds o c.genesis c.datas c.auditors) := by
  obtain ⟨a1, a2, a3, a4, a5, a6, a7⟩ := h
  refine ⟨?_, ?_, ?_, ?_, ?_, ?_⟩
  · rw [Bool.eq_iff_iff, addrIsAdmin_iff, addrIsAdmin_iff]; simp only [a1.1.mem_iff]
  · rw [Bool.eq_iff_iff, pubIsAdmin_iff, pubIsAdmin_iff]; simp only [a1.1.mem_iff]
  · unfold isGenesis
    rw [decide_eq_true_iff, (setAddAll_spec _ [] List.nodup_nil).2, a3.1.mem_iff]; simp
  · unfold attrContains
    rw [contains_iff, a5.1.mem_iff]
  · have hs : c'.datas.Pairwise fun a b => bytesCompare a b ≤ 0 := a4.2.imp fun h => (bytesCompare_le_iff _ _).1 h
    have hm := lowerBound_mem_le hs x
    rw [a4.1.mem_iff] at hm
    rw [← hm]
    unfold hasData
    by_cases h0 : c'.datas.length = 0
    · rw [if_pos h0, List.length_eq_zero_iff.1 h0]; simp
    · rw [if_neg h0]
      cases h1 : c'.datas[lowerBound bytesCompare c'.datas x]? with
      | none => simp
      | some y => simp [bytesCompare_lawful.eq]
  · intro o ho
    obtain ⟨s1, m1⟩ := C91_auditors o ho c'.genesis c'.datas c'.auditors
    obtain ⟨s2, m2⟩ := C91_auditors o ho c.genesis c.datas c.auditors
    exact s1.ext bytesCompare_lawful s2 fun x => by rw [m1, m2, a3.1.mem_iff, a4.1.mem_iff, a6.1.mem_iff]

theorem bootSearch_lowerBound (l : List Server) (k : Bytes) :
    bootSearch (l.map Server.boot) k = lowerBound bytesCompare (l.map Server.nid) k := by
  unfold bootSearch lowerBound
  rw [List.length_map, List.length_map]
  congr 1
  funext i
  rw [List.getElem?_map, List.getElem?_map]
  cases l[i]? <;> rfl

/-- **C131, boot nodes:** after sorting, if all boot nodes are of one chain, a boot node is added exactly if none has its node id. -/
theorem C131_boot_partial {c c' : Infos} (h : SortOf c c') (k : Nat) (hk : ∀ b ∈ c.boots, b.chain = k) (s : Server) (l' : List Boot)
    (flag : Bool) (ha : AddBoot (c'.boots.map Server.boot) s.boot l' flag) : flag = true ↔ ∀ b ∈ c.boots, b.nid ≠ s.nid := by
  obtain ⟨_, a2, _⟩ := h
  have hs : (c'.boots.map Server.nid).Pairwise fun a b => bytesCompare a b ≤ 0 := by
    rw [List.pairwise_map]
    refine List.Pairwise.imp_of_mem ?_ a2.2
    intro a b ha hb h
    rw [serverCompare_le_iff, hk a (a2.1.mem_iff.1 ha), hk b (a2.1.mem_iff.1 hb)] at h
    rcases h with h | h
    · omega
    · exact h.2
  have hm := lowerBound_mem_le hs s.nid
  rw [← bootSearch_lowerBound] at hm
  have hmem : s.nid ∈ c'.boots.map Server.nid ↔ ∃ b ∈ c.boots, b.nid = s.nid := by
    rw [List.mem_map]; simp only [a2.1.mem_iff]
  have e : Option.map Boot.idString (c'.boots.map Server.boot)[bootSearch (c'.boots.map Server.boot) s.boot.idString]? =
      (c'.boots.map Server.nid)[bootSearch (c'.boots.map Server.boot) s.nid]? := by
    rw [List.getElem?_map, List.getElem?_map, Option.map_map]; rfl
  unfold AddBoot at ha
  rw [e] at ha
  by_cases h0 : (c'.boots.map Server.boot).length = 0
  · rw [if_pos h0] at ha
    rw [List.length_map, a2.1.length_eq, List.length_eq_zero_iff] at h0
    rw [h0]; simp [ha.2]
  · rw [if_neg h0] at ha
    by_cases h1 : (c'.boots.map Server.nid)[bootSearch (c'.boots.map Server.boot) s.nid]? = some s.boot.idString
    · rw [if_pos h1] at ha
      rw [ha.2]
      obtain ⟨b, hb1, hb2⟩ := hmem.1 (hm.1 h1)
      constructor
      · intro h; cases h
      · intro h; exact absurd hb2 (h b hb1)
    · rw [if_neg h1] at ha
      rw [ha.2.2]
      simp only [true_iff]
      intro b hb hb2
      exact h1 (hm.2 (hmem.2 ⟨b, hb, hb2⟩))

/-- Boot nodes of two chains, in the order of `Sort`. -/
def twoChains : List Server := [⟨1, [98], [49], 1, 1, 1, 1, 1, 1⟩, ⟨2, [97], [49], 1, 1, 1, 1, 1, 1⟩]

/-- C131 fails: `Sort` orders boot nodes by chain first, `AddBootNode` searches by node id alone, and adds one that is there. -/
theorem C131_boot_refuted : (infosWith twoChains).sort.boots = twoChains ∧
    AddBoot (twoChains.map Server.boot) ⟨[97], 2⟩ [⟨[97], 2⟩, ⟨[97], 2⟩, ⟨[98], 1⟩] true := by
  refine ⟨by decide +kernel, ?_⟩
  unfold AddBoot
  rw [if_neg (by decide), if_neg (by decide +kernel)]
  exact ⟨by decide +kernel, by decide +kernel, rfl⟩

/-- **C131, boot nodes that pass `Validation`** and have a node id at all have one of 64 bytes, written in full. -/
theorem C131_server_partial (d : Server) (h : d.valid = true) (id : Bytes) (hi : d.nodeId = some id) :
    id.length = 64 ∧ Hex.hexDecode d.nid = (id, true) := by
  unfold Server.valid at h
  split at h
  · cases h
  · rename_i h0
    rw [not_or, not_not] at h0
    unfold Server.nodeId at hi
    split at hi
    · rename_i b hb
      have hl := ((Hex.hexDecode_spec _ _).1 hb).length_eq
      have h2 : (Hex.byteDigits b).length = 2 * b.length := by
        clear hb hl hi
        induction b with
        | nil => rfl
        | cons x b ih => simp only [Hex.byteDigits, List.flatMap_cons, List.length_append, List.length_cons, List.length_nil] at *; omega
      have : b.length = 64 := by omega
      rw [this, Option.some.injEq] at hi
      simp only [Nat.sub_self, List.replicate_zero, List.drop_zero, List.nil_append] at hi
      rw [← hi]
      exact ⟨this, hb⟩
    · cases hi

/-- **C131, boot nodes that pass `Validation`** have an address and all their ports, and only these boot nodes pass whose node id has
the right number of characters. -/
theorem C131_server_ports (d : Server) : d.valid = true ↔
    d.nid.length = 128 ∧ d.ip ≠ [] ∧ ∀ p ∈ [d.basic, d.cons0, d.cons1], p ≠ 0 := by
  unfold Server.valid
  simp only [List.mem_cons, List.not_mem_nil, or_false, forall_eq_or_imp, forall_eq, ne_eq, ← List.length_eq_zero_iff]
  split
  · rename_i h; simp only [Bool.false_eq_true, false_iff]; tauto
  · split
    · rename_i h; simp only [Bool.false_eq_true, false_iff]; tauto
    · simp only [true_iff]; tauto

/-- C131 fails: `Validation` accepts a node id that is no hexadecimal text. -/
theorem C131_server_refuted : ∃ d : Server, d.valid = true ∧ d.nodeId = none :=
  ⟨⟨0, List.replicate 128 103, [49], 1, 1, 1, 1, 1, 1⟩, by decide +kernel, by decide +kernel⟩

/-- **C131, reports:** of the chains with a valid structure the root reports to none and all others to the main chain. -/
theorem C131_report (s : ChainStruct) (h : s.validate = .ok ()) : reportTo s = if s.mode = .root then Num.nilChainID else 0 := by
  have hn : (0 : UInt32) ≠ Num.nilChainID := by decide
  unfold ChainStruct.validate at h
  unfold reportTo
  cases hm : s.mode <;> rw [hm] at h <;> simp only at h
  · split at h
    · cases h
    · rename_i h0; rw [not_or, not_not, not_not] at h0; simp [h0.2]
  · split at h
    · cases h
    · rename_i h0; rw [not_or] at h0; simp [h0.2]
  · split at h
    · cases h
    · rename_i h0; rw [not_or] at h0; simp [h0.2]
  · cases h

/-! Concrete cases. -/
example : (infosWith (twoChains.reverse)).sort = infosWith twoChains ∧ DistinctBoots twoChains := by
  unfold DistinctBoots; exact ⟨by decide +kernel, by decide +kernel⟩
example : ({ infosWith [] with admins := [[4, 2], [4, 1], []], datas := [[3], [1], [2]] } : Infos).sort.admins = [[], [4, 1], [4, 2]] ∧
    hasData ({ infosWith [] with datas := [[3], [1], [2]] } : Infos).sort.datas [3] = true ∧ hasData [[3], [1], [2]] [3] = false := by
  decide +kernel
example : addrIsAdmin (fun b => List.replicate 12 0 ++ b) [[4, 1], [2, 7]] [1] = true ∧
    addrIsAdmin (fun b => List.replicate 12 0 ++ b) [[4, 1], [2, 7]] [7] = false := by decide +kernel

end Verif.Nodes
