import Verif.Proofs.ProxyArena
import Verif.Proofs.SyncExact
import Verif.Spec.Proxy
import Verif.Props.Sync
/-
  The invariant of the shared allocator with its proxies.
-/
namespace Blink

/-! ### Facts about the shared allocator -/

theorem SReach.write {s0 s K} (h : SReach s0 s K) {b : Owned} {x : Nat} (hb : b ∈ K.owned) (hx : b.Has x) (v : Byte) :
    SReach s0 { s with w := { s.w with mem := setBytes s.w.mem x 1 (fun _ => v) } } K := by
  obtain ⟨h0, tr, hr⟩ := h
  exact ⟨h0, _, hr.snoc (.write hb hx) rfl .write⟩

theorem SReach.setList {s0 s K} (h : SReach s0 s K) (m' : Nat → Byte) (xs : List Nat)
    (hx : ∀ x ∈ xs, ∃ b ∈ K.owned, b.Has x) :
    SReach s0 { s with w := { s.w with mem := fun x => if x ∈ xs then m' x else s.w.mem x } } K := by
  induction xs with
  | nil => simpa using h
  | cons y xs ih =>
    obtain ⟨b, hb, hy⟩ := hx y List.mem_cons_self
    have := (ih fun x hm => hx x (List.mem_cons_of_mem _ hm)).write hb hy (m' y)
    have he : (setBytes (fun x => if x ∈ xs then m' x else s.w.mem x) y 1 fun _ => m' y) =
        fun x => if x ∈ y :: xs then m' x else s.w.mem x := by
      funext x
      by_cases hxy : x = y
      · subst hxy; simp [setBytes]
      · rw [setBytes_out (by omega)]; simp [hxy]
    dsimp only at this
    rw [he] at this
    exact this

/-- Owners may store anything into their blocks. -/
theorem SReach.setMem {s0 s K} (h : SReach s0 s K) {m' : Nat → Byte}
    (hm : ∀ x, m' x ≠ s.w.mem x → ∃ b ∈ K.owned, b.Has x) : SReach s0 { s with w := { s.w with mem := m' } } K := by
  have := h.setList m' (K.owned.flatMap fun b => List.range' b.addr b.len) (by
    intro x hx
    rw [List.mem_flatMap] at hx
    obtain ⟨b, hb, hx⟩ := hx
    rw [List.mem_range'_1] at hx
    exact ⟨b, hb, hx⟩)
  have he : (fun x => if x ∈ (K.owned.flatMap fun b => List.range' b.addr b.len) then m' x else s.w.mem x) = m' := by
    funext x
    split
    · rfl
    · rename_i hx
      apply Classical.byContradiction
      intro hne
      obtain ⟨b, hb, h1⟩ := hm x (fun he => hne he.symm)
      exact hx (List.mem_flatMap.mpr ⟨b, hb, List.mem_range'_1.mpr h1⟩)
  rw [he] at this
  exact this

theorem GoRes.debug {s0 s cs K B t ch r s'} (h : SInv s0 s cs K B) (hg : GoRes s cs t ch r s') : s'.w.debug = s.w.debug := by
  have slow : ∀ {l r root w'}, l.Valid → allocSlow s.root s.minChunk l s.w = .ok ((r, root), w') → w'.debug = s.w.debug := by
    intro l r root w' hv he
    rw [h.root] at he
    rcases allocSlow_spec h.arena hv h.dbg with ⟨e, _, he'⟩ | ⟨r', w'', cs', he', hs, _⟩
    · rw [he] at he'; cases he'
    · rw [he] at he'
      injection he' with he'; injection he' with _ h2
      subst h2
      cases hs <;> rfl
  have hv : ∀ {j}, s.pcs t = .slow j → j.layout.Valid := by
    intro j hpc
    have ht := h.thr t
    rw [hpc] at ht
    generalize K.busy t = bz at ht
    generalize B t = Bt at ht
    cases ht with
    | slow hj => exact hj.valid
  cases hg with
  | slowErr hpc he => exact slow (hv hpc) he
  | slowOk hpc he => exact slow (hv hpc) he
  | _ => rfl

theorem SReach.debug {s0 s K} (h : SReach s0 s K) : s.w.debug = s0.w.debug := by
  obtain ⟨h0, tr, hr⟩ := h
  induction hr with
  | nil => rfl
  | @snoc tr s K a r s' K' hr hl hs ha ih =>
    obtain ⟨cs, B, hi⟩ := hr.inv h0
    rw [← ih]
    have reset : ∀ k, resetStep s k = .ok (some (r, s')) → s'.w.debug = s.w.debug := by
      intro k hk
      unfold resetStep at hk
      cases k with
      | true =>
        rw [hi.root, ebind_ok (arenaReset_keep hi.arena)] at hk
        injection hk with hk; injection hk with hk; injection hk with _ hk
        subst hk
        cases cs with
        | nil => rfl
        | cons c t => exact (freeAll_fields _ _).2.2.2.1
      | false =>
        rw [hi.root, ebind_ok (arenaReset_all hi.arena)] at hk
        injection hk with hk; injection hk with hk; injection hk with _ hk
        subst hk
        exact (freeAll_fields _ _).2.2.2.1
    cases a with
    | call t c =>
      simp only [sstep] at hs
      split at hs
      · injection hs with hs; injection hs with hs; injection hs with _ h2; subst h2; rfl
      · cases hs
    | go t ch => exact (hi.go_res hs).debug hi
    | write x v => injection hs with hs; injection hs with hs; injection hs with _ h2; subst h2; rfl
    | reset => exact reset true hs
    | resetUnchecked =>
      simp only [sstep] at hs
      split at hs
      · exact reset true hs
      · cases hs
    | resetFinal => exact reset false hs

theorem SReach.top {s0 s K} (h : SReach s0 s K) : s.w.top = s0.w.top := by
  obtain ⟨cs, B, hi⟩ := h.inv
  exact hi.top

theorem SReach.busy_none {s0 s K} (h : SReach s0 s K) {t} (hb : K.busy t = none) : s.pcs t = .idle := by
  obtain ⟨cs, B, hi⟩ := h.inv
  exact (hi.busy_none hb).1

/-! ### Which block of the shared allocator belongs to whom -/

/-- The blocks of the shared allocator are `D`, the blocks `B i` for every `i`, and some that nobody needs any more. -/
def Tiles (owned D : List Owned) (B : Nat → List Owned) : Prop :=
  ∃ (P : List Nat) (G : List Owned), P.Nodup ∧ (∀ i, i ∉ P → B i = []) ∧ owned.Perm (D ++ (P.flatMap B ++ G))

theorem Tiles.focus {owned D B} (h : Tiles owned D B) (t : Nat) :
    ∃ R, owned.Perm (D ++ (B t ++ R)) ∧ (∀ u, u ≠ t → ∀ b ∈ B u, b ∈ R) ∧
      ∀ {owned' D' x G}, owned'.Perm (D' ++ (x ++ (R ++ G))) → Tiles owned' D' (put B t x) := by
  obtain ⟨ts, G, hn, hz, hL⟩ := h
  have key : ∃ us : List Nat, t ∉ us ∧ us.Nodup ∧ (∀ u, u ∉ t :: us → B u = []) ∧ owned.Perm (D ++ ((t :: us).flatMap B ++ G)) := by
    by_cases ht : t ∈ ts
    · have hp := List.perm_cons_erase ht
      have hn' := hp.nodup_iff.mp hn
      rw [List.nodup_cons] at hn'
      exact ⟨ts.erase t, hn'.1, hn'.2, fun u hu => hz u fun hu' => hu (hp.mem_iff.mp hu'),
        hL.trans (((flatMap_perm B hp).append_right G).append_left D)⟩
    · refine ⟨ts, ht, hn, fun u hu => hz u fun hu' => hu (List.mem_cons_of_mem _ hu'), ?_⟩
      rw [List.flatMap_cons, hz t ht]; exact hL
  obtain ⟨us, h1, h2, h3, h4⟩ := key
  refine ⟨us.flatMap B ++ G, by rw [List.flatMap_cons, List.append_assoc] at h4; exact h4, ?_, ?_⟩
  · intro u hu b hb
    refine List.mem_append_left _ (List.mem_flatMap.mpr ⟨u, ?_, hb⟩)
    by_cases hm : u ∈ t :: us
    · exact (List.mem_cons.mp hm).resolve_left hu
    · rw [h3 u hm] at hb; cases hb
  · intro owned' D' x G' hx
    refine ⟨t :: us, G ++ G', List.nodup_cons.mpr ⟨h1, h2⟩, ?_, ?_⟩
    · intro u hu
      rw [put_ne]
      · exact h3 u hu
      · intro he; exact hu (he ▸ List.mem_cons_self)
    · rw [List.flatMap_cons, put_same,
        flatMap_congr' (f := put B t x) (g := B) (fun u hu => put_ne _ _ (fun he : u = t => h1 (he ▸ hu)))]
      simpa [List.append_assoc] using hx

theorem Tiles.mem {owned D B} (h : Tiles owned D B) {i b} (hb : b ∈ B i) : b ∈ owned := by
  obtain ⟨R, h1, _⟩ := h.focus i
  exact h1.mem_iff.mpr (List.mem_append_right _ (List.mem_append_left _ hb))

theorem Tiles.memD {owned D B} (h : Tiles owned D B) {b} (hb : b ∈ D) : b ∈ owned := by
  obtain ⟨P, G, _, _, h1⟩ := h
  exact h1.mem_iff.mpr (List.mem_append_left _ hb)

theorem Tiles.apart {owned D B} (h : Tiles owned D B) (ha : owned.Pairwise Owned.Apart) (i : Nat) :
    (B i).Pairwise Owned.Apart ∧ (∀ d ∈ D, ∀ b ∈ B i, Owned.Apart d b) ∧
    ∀ u, u ≠ i → ∀ c ∈ B u, ∀ b ∈ B i, Owned.Apart c b := by
  obtain ⟨R, h1, h2, _⟩ := h.focus i
  have := (h1.pairwise_iff fun h => Owned.Apart.symm h).mp ha
  rw [List.pairwise_append, List.pairwise_append] at this
  obtain ⟨_, ⟨a1, _, a3⟩, a4⟩ := this
  exact ⟨a1, fun d hd b hb => a4 d hd b (List.mem_append_left _ hb), fun u hu c hc b hb => (a3 b hb c (h2 u hu c hc)).symm⟩

theorem Tiles.apartD {owned D B} (h : Tiles owned D B) (ha : owned.Pairwise Owned.Apart) : D.Pairwise Owned.Apart := by
  obtain ⟨P, G, _, _, h1⟩ := h
  have := (h1.pairwise_iff fun h => Owned.Apart.symm h).mp ha
  exact (List.pairwise_append.mp this).1

/-! ### One proxy -/

/-- Proxy slot `px` with chunks `cs`, the chunks `pend` still to be given back, agrees with what callers know. -/
inductive PxOK (w : World) : Option Proxy → Bool → List Owned → Option (PCall × Option Owned) →
    Option (Call × Option Owned) → Option (Call × Option Owned) → List Chunk → List Chunk → Prop
  | absent {z} : PxOK w none false [] none z z [] []
  | idle {cs m led z} (hv : VInv w cs) (hL : LOK cs led) (hm : m ≤ HUGE) :
      PxOK w (some ⟨⟨rootOf cs, m⟩, .idle⟩) true led none z z cs []
  | alloc {cs m led l R} (hv : VInv w cs) (hL : LOK cs led) (hm : m ≤ HUGE) (hl : l.Modest) (hn : NoFit cs l)
      (hR : chunkReq (rootCum cs) m l = some R) :
      PxOK w (some ⟨⟨rootOf cs, m⟩, .alloc l⟩) true led (some (.allocate l, none)) none (some (.allocate ⟨R, 8⟩, none)) cs []
  | resize {cs m led p old new b R} (hv : VInv w cs) (hL : LOK cs (b :: led)) (hm : m ≤ HUGE) (hl : new.Modest)
      (hf : b.Fits p old) (hn : NoFitResize cs p old new) (hR : chunkReq (rootCum cs) m new = some R) :
      PxOK w (some ⟨⟨rootOf cs, m⟩, .resize p old new⟩) true led (some (.resize p old new, some b)) none
        (some (.allocate ⟨R, 8⟩, none)) cs []
  | chain {c m pend p n b} (hv : VInv w [c]) (hp : VInv w pend) (hm : m ≤ HUGE) (hc : c.cursor = c.start + 32) :
      PxOK w (some ⟨⟨c.start, m⟩, .chain (rootOf pend)⟩) true [] (some (.resetUnchecked, none)) none
        (some (.deallocate p n, some b)) [c] pend

theorem PxOK.frame {w w' : World} {px live led pb db kb cs pend} (h : PxOK w px live led pb db kb cs pend)
    (ht : w'.top = w.top) (hm : ∀ x, InCs (cs ++ pend) x → w'.mem x = w.mem x) : PxOK w' px live led pb db kb cs pend := by
  have key : ∀ ds, (∀ c ∈ ds, c ∈ cs ++ pend) → VInv w ds → VInv w' ds := fun ds hs hv =>
    hv.frame ht fun c hc x h1 h2 => hm x ⟨c, hs c hc, h1, h2⟩
  cases h with
  | absent => exact .absent
  | idle hv hL h1 => exact .idle (key _ (by simp) hv) hL h1
  | alloc hv hL h1 h2 h3 h4 => exact .alloc (key _ (by simp) hv) hL h1 h2 h3 h4
  | resize hv hL h1 h2 h3 h4 h5 => exact .resize (key _ (by simp) hv) hL h1 h2 h3 h4 h5
  | chain hv hp h1 h2 =>
    exact .chain (key _ (fun c hc => List.mem_append_left _ hc) hv) (key _ (fun c hc => List.mem_append_right _ hc) hp) h1 h2

theorem PxOK.busy {w : World} {px live led db kb cs pend} (h : PxOK w px live led none db kb cs pend) :
    db = kb ∧ ∀ z, PxOK w px live led none z z cs pend := by
  cases h with
  | absent => exact ⟨rfl, fun _ => .absent⟩
  | idle hv hL h1 => exact ⟨rfl, fun _ => .idle hv hL h1⟩

theorem PxOK.dead {w : World} {px led pb db kb cs pend} (h : PxOK w px false led pb db kb cs pend) :
    px = none ∧ led = [] ∧ pb = none ∧ db = kb ∧ cs = [] ∧ pend = [] := by
  cases h with
  | absent => exact ⟨rfl, rfl, rfl, rfl, rfl, rfl⟩

theorem PxOK.ready {w : World} {px led db kb cs pend} (h : PxOK w px true led none db kb cs pend) :
    ∃ m, px = some ⟨⟨rootOf cs, m⟩, .idle⟩ ∧ VInv w cs ∧ LOK cs led ∧ m ≤ HUGE ∧ db = kb ∧ pend = [] := by
  cases h with
  | idle hv hL h1 => exact ⟨_, rfl, hv, hL, h1, rfl, rfl⟩

theorem PxOK.free {w : World} {px live led pb db kb cs pend} (h : PxOK w px live led pb db kb cs pend) (hk : kb = none) : db = none := by
  cases h with
  | absent => exact hk
  | idle => exact hk
  | alloc => rfl
  | resize => rfl
  | chain => rfl

/-- The chunks of a proxy are well formed. -/
theorem PxOK.ok {w : World} {px live led pb db kb cs pend} (h : PxOK w px live led pb db kb cs pend) :
    ∀ c ∈ cs ++ pend, ChunkOK c := by
  cases h with
  | absent => simp
  | idle hv hL h1 => simpa using hv.ok
  | alloc hv hL h1 h2 h3 h4 => simpa using hv.ok
  | resize hv hL h1 h2 h3 h4 h5 => simpa using hv.ok
  | chain hv hp h1 _ =>
    intro c hc
    rcases List.mem_append.mp hc with hc | hc
    · exact hv.ok c hc
    · exact hp.ok c hc

/-- What callers hold through a proxy is in the used part of its chunks. -/
theorem PxOK.led {w : World} {px live led pb db kb cs pend} (h : PxOK w px live led pb db kb cs pend) :
    LOK cs (((pb.bind (·.2)).toList) ++ led) := by
  cases h with
  | absent => exact LOK.nil
  | idle hv hL h1 => exact hL
  | alloc hv hL h1 h2 h3 h4 => exact hL
  | resize hv hL h1 h2 h3 h4 h5 => exact hL
  | chain hv hp h1 _ => exact LOK.nil

/-! ### Everything -/

structure PInv (p0 ps : PS) (K : PBook) (KS : Book) (cs pend : Nat → List Chunk) : Prop where
  reach : SReach p0.s ps.s KS
  top : ps.s.w.top ≤ HUGE
  hist : ∀ v ∈ ps.hist, v ≤ HUGE
  tiles : Tiles KS.owned K.direct.owned (fun i => (cs i ++ pend i).map Chunk.own)
  px : ∀ i, PxOK ps.s.w (ps.px i) (K.live i) (K.led i) (K.pbusy i) (K.direct.busy i) (KS.busy i) (cs i) (pend i)
  snap : ∀ i, K.direct.busy i ≠ none → KS.snap i = K.direct.snap i

theorem PStart.inv {ps : PS} (h : PStart ps) : PInv ps ps PBook.empty Book.empty (fun _ => []) (fun _ => []) where
  reach := ⟨h.shared, [], .nil⟩
  top := h.top
  hist := by rw [h.hist]; simp
  tiles := ⟨[], [], .nil, fun _ _ => rfl, by simp [PBook.empty, Book.empty]⟩
  px := by intro i; rw [h.px i]; exact .absent
  snap := fun _ _ => rfl

theorem Chunk.own_has {c : Chunk} (hc : ChunkOK c) {x : Nat} : c.own.Has x ↔ c.start ≤ x ∧ x < c.end_ := by
  have := hc.lo; have := hc.hi
  simp only [Owned.Has, Chunk.own]
  omega

theorem PInv.inCs {p0 ps K KS cs pend} (h : PInv p0 ps K KS cs pend) {i x} (hx : InCs (cs i ++ pend i) x) :
    ∃ b ∈ (cs i ++ pend i).map Chunk.own, b.Has x := by
  obtain ⟨c, hc, h1⟩ := hx
  exact ⟨c.own, List.mem_map_of_mem hc, (Chunk.own_has ((h.px i).ok c hc)).mpr h1⟩

theorem PInv.acc {p0 ps K KS cs pend} (h : PInv p0 ps K KS cs pend) (i : Nat) : Acc ps.s.w (cs i ++ pend i) := by
  intro c hc
  have hok := (h.px i).ok c hc
  have hm : c.own ∈ KS.owned := h.tiles.mem (i := i) (List.mem_map_of_mem hc)
  obtain ⟨_, _, _, B, _, hB, h1, h2⟩ := C22_layout_and_memory h.reach hm
  have := hok.lo; have := hok.hi
  simp only [Chunk.own] at h1 h2
  exact ⟨B, hB, h1, by omega⟩

/-- No byte is in chunks of two proxies, nor in a chunk of a proxy and in a block owned directly. -/
theorem PInv.sep {p0 ps K KS cs pend} (h : PInv p0 ps K KS cs pend) {i u x} (hne : u ≠ i) (h1 : InCs (cs i ++ pend i) x)
    (h2 : InCs (cs u ++ pend u) x) : False := by
  obtain ⟨b, hb, hx⟩ := h.inCs h1
  obtain ⟨c, hc, hy⟩ := h.inCs h2
  exact (h.tiles.apart (C22_no_overlap h.reach) i).2.2 u hne c hc b hb x ⟨hy, hx⟩

theorem PInv.sepD {p0 ps K KS cs pend} (h : PInv p0 ps K KS cs pend) {i x} {d : Owned} (hd : d ∈ K.direct.owned)
    (hx : d.Has x) (h1 : InCs (cs i ++ pend i) x) : False := by
  obtain ⟨b, hb, hxb⟩ := h.inCs h1
  exact (h.tiles.apart (C22_no_overlap h.reach) i).2.1 d hd b hb x ⟨hx, hxb⟩

theorem InUsed.inCs {cs : List Chunk} (hok : ∀ c ∈ cs, ChunkOK c) {x} (h : InUsed cs x 1) : InCs cs x := by
  obtain ⟨c, hc, h1, h2⟩ := h
  have := (hok c hc).lo; have := (hok c hc).hi
  exact ⟨c, hc, by omega, by omega⟩

/-- A step that concerns only proxy (or identity) `i`. -/
theorem PInv.upd {p0 ps K KS cs pend} (h : PInv p0 ps K KS cs pend) (i : Nat) {ps' : PS} {K' : PBook} {KS' : Book}
    {csi pendi : List Chunk} (hreach : SReach p0.s ps'.s KS')
    (hhist : ∀ v ∈ ps'.hist, v ≤ HUGE)
    (htiles : ∀ R, KS.owned.Perm (K.direct.owned ++ ((cs i ++ pend i).map Chunk.own ++ R)) →
      ∃ G, KS'.owned.Perm (K'.direct.owned ++ ((csi ++ pendi).map Chunk.own ++ (R ++ G))))
    (hmem : ∀ u, u ≠ i → ∀ x, InCs (cs u ++ pend u) x → ps'.s.w.mem x = ps.s.w.mem x)
    (hpx : ∀ u, u ≠ i → ps'.px u = ps.px u ∧ K'.live u = K.live u ∧ K'.led u = K.led u ∧ K'.pbusy u = K.pbusy u ∧
      K'.direct.busy u = K.direct.busy u ∧ KS'.busy u = KS.busy u)
    (hi : PxOK ps'.s.w (ps'.px i) (K'.live i) (K'.led i) (K'.pbusy i) (K'.direct.busy i) (KS'.busy i) csi pendi)
    (hsn : ∀ u, K'.direct.busy u ≠ none → KS'.snap u = K'.direct.snap u) :
    PInv p0 ps' K' KS' (put cs i csi) (put pend i pendi) where
  reach := hreach
  top := by rw [hreach.top, ← h.reach.top]; exact h.top
  hist := hhist
  tiles := by
    obtain ⟨R, h1, h2, h3⟩ := h.tiles.focus i
    obtain ⟨G, hG⟩ := htiles R h1
    have := h3 hG
    have he : (fun u => (put cs i csi u ++ put pend i pendi u).map Chunk.own) =
        put (fun u => (cs u ++ pend u).map Chunk.own) i ((csi ++ pendi).map Chunk.own) := by
      funext u
      by_cases hu : u = i
      · subst hu; rw [put_same, put_same, put_same]
      · rw [put_ne _ _ hu, put_ne _ _ hu, put_ne _ _ hu]
    rw [he]; exact this
  px := by
    intro u
    by_cases hu : u = i
    · subst hu; rw [put_same, put_same]; exact hi
    · rw [put_ne _ _ hu, put_ne _ _ hu]
      obtain ⟨a1, a2, a3, a4, a5, a6⟩ := hpx u hu
      rw [a1, a2, a3, a4, a5, a6]
      exact (h.px u).frame (hreach.top.trans h.reach.top.symm) (hmem u hu)
  snap := hsn

theorem PInv.same {p0 cs pend} {ps' : PS} {K' : PBook} {KS' : Book} {i : Nat}
    (hcs : PInv p0 ps' K' KS' (put cs i (cs i)) (put pend i (pend i))) : PInv p0 ps' K' KS' cs pend := by
  rw [put_self, put_self] at hcs; exact hcs

/-- Stores into one's own chunks. -/
theorem PInv.setMem {p0 ps K KS cs pend} (h : PInv p0 ps K KS cs pend) {i : Nat} {m' : Nat → Byte}
    (hm : ∀ x, m' x ≠ ps.s.w.mem x → InCs (cs i ++ pend i) x) :
    SReach p0.s { ps.s with w := { ps.s.w with mem := m' } } KS ∧
    (∀ u, u ≠ i → ∀ x, InCs (cs u ++ pend u) x → m' x = ps.s.w.mem x) ∧
    (∀ d ∈ K.direct.owned, ∀ x, d.Has x → m' x = ps.s.w.mem x) := by
  refine ⟨h.reach.setMem fun x hx => ?_, ?_, ?_⟩
  · obtain ⟨b, hb, hx⟩ := h.inCs (hm x hx)
    exact ⟨b, h.tiles.mem (i := i) hb, hx⟩
  · intro u hu x hx
    apply Classical.byContradiction
    intro hne
    exact h.sep hu (hm x hne) hx
  · intro d hd x hx
    apply Classical.byContradiction
    intro hne
    exact h.sepD hd hx (hm x hne)

end Blink
