import Verif.Proofs.ProxyGo
import Verif.Proofs.ProxyMax
import Verif.Spec.ProxyExec
/-
  Property theorems about `LocalBlinkAlloc`, the proxies of a `SyncBlinkAlloc`: C26–C28.
  `PReach p0 ps K` (Verif/Spec/Proxy.lean): `ps` is reached from a fresh shared allocator without proxies in state `p0` by an
  arbitrary schedule of direct calls, creations of proxies, calls to proxies, resets and drops that respect the contract
  `PLegal`; the callers' book is `K`. Release builds; requests through proxies and addresses below 2^61.
-/
namespace Blink

/-! ### A concrete history -/

/-- Proxies 0 and 1 get their first chunks; 2 allocates directly in between; 0's block is written to and then grown beyond its
chunk, so that the proxy waits inside the shared allocator. -/
def pdemoActs : List PAct :=
  [.spawn 0 0, .spawn 1 0, .allocate 0 ⟨100, 8⟩] ++ pgoes 0 5 ++ [.allocate 1 ⟨10, 16⟩] ++ pgoes 1 3 ++
  [.shared (.call 2 (.allocate ⟨40, 8⟩))] ++ pgoes 2 4 ++ pgoes 1 1 ++
  [.shared (.write 65605 (.raw 7)), .resize 0 65600 ⟨100, 8⟩ ⟨300, 16⟩] ++ pgoes 0 2

/-- It comes back, resets by giving its old chunk to the shared allocator, and all proxies go. -/
def pdemoActs2 : List PAct := pdemoActs ++ pgoes 0 5 ++ [.resetUnchecked 0] ++ pgoes 0 3 ++ [.drop 1, .reset 0, .drop 0]

/-! ### C26 -/

theorem PInv.no_overlap {p0 ps K KS cs pend} (hi : PInv p0 ps K KS cs pend) {ids : List Nat} (hn : ids.Nodup) :
    (K.direct.owned ++ ids.flatMap K.blocks).Pairwise Owned.Apart := by
  have hin : ∀ i b x, b ∈ K.blocks i → b.Has x → InCs (cs i ++ pend i) x := by
    intro i b x hb hx
    obtain ⟨c, hc, h1⟩ := ((hi.px i).led.byte hb hx).inCs fun c hc => (hi.px i).ok c (List.mem_append_left _ hc)
    exact ⟨c, List.mem_append_left _ hc, h1⟩
  rw [List.pairwise_append]
  refine ⟨hi.tiles.apartD (C22_no_overlap hi.reach), ?_, ?_⟩
  · induction ids with
    | nil => exact .nil
    | cons i ids ih =>
      rw [List.nodup_cons] at hn
      rw [List.flatMap_cons, List.pairwise_append]
      refine ⟨(hi.px i).led.apart, ih hn.2, ?_⟩
      intro b hb c hc x hx
      obtain ⟨u, hu, hc⟩ := List.mem_flatMap.mp hc
      have hne : u ≠ i := fun he => hn.1 (he ▸ hu)
      exact hi.sep hne (hin i b x hb hx.1) (hin u c x hc hx.2)
  · intro b hb c hc x hx
    obtain ⟨u, _, hc⟩ := List.mem_flatMap.mp hc
    exact hi.sepD hb hx.1 (hin u c x hc hx.2)

/-- C26: at every moment of every history, the blocks obtained from the shared allocator directly and the blocks obtained
through its proxies, including those being resized, have pairwise no byte in common. -/
theorem C26_no_overlap {p0 ps : PS} {K : PBook} (h : PReach p0 ps K) {ids : List Nat} (hn : ids.Nodup) :
    (K.direct.owned ++ ids.flatMap K.blocks).Pairwise Owned.Apart := by
  obtain ⟨_, _, _, hi⟩ := h.inv
  exact hi.no_overlap hn

theorem PInv.memory {p0 ps K KS cs pend} (hi : PInv p0 ps K KS cs pend) {b : Owned} (hb : b ∈ K.direct.owned ∨ ∃ i, b ∈ K.blocks i) :
    b.addr % b.align = 0 ∧ b.size ≤ b.len ∧ 0 < b.addr ∧
    ∃ B ∈ openBlocks ps.s.w.log, B ∈ ps.s.w.held ∧ B.addr ≤ b.addr ∧ b.addr + b.len ≤ B.addr + B.len := by
  rcases hb with hb | ⟨i, hb⟩
  · exact C22_layout_and_memory hi.reach (hi.tiles.memD hb)
  · obtain ⟨h1, _, h3, c, hc, h4, h5⟩ := (hi.px i).led.each b hb
    have hok := (hi.px i).ok c (List.mem_append_left _ hc)
    have := hok.lo; have := hok.hi
    obtain ⟨_, _, _, B, f1, f2, f3, f4⟩ := C22_layout_and_memory hi.reach
      (hi.tiles.mem (i := i) (List.mem_map_of_mem (List.mem_append_left _ hc)))
    simp only [Chunk.own] at f3 f4
    exact ⟨h3, h1, by omega, B, f1, f2, by omega, by omega⟩

/-- C26: every block, however obtained, is aligned and long enough for its layout, not null, and lies inside one block that
the shared allocator obtained from the underlying allocator and still holds. -/
theorem C26_memory {p0 ps : PS} {K : PBook} (h : PReach p0 ps K) {b : Owned} (hb : b ∈ K.direct.owned ∨ ∃ i, b ∈ K.blocks i) :
    b.addr % b.align = 0 ∧ b.size ≤ b.len ∧ 0 < b.addr ∧
    ∃ B ∈ openBlocks ps.s.w.log, B ∈ ps.s.w.held ∧ B.addr ≤ b.addr ∧ b.addr + b.len ≤ B.addr + B.len := by
  obtain ⟨_, _, _, hi⟩ := h.inv
  exact hi.memory hb

theorem PInv.no_ub {p0 ps K KS cs pend} (hi : PInv p0 ps K KS cs pend) {a : PAct} (hl : PLegal K a) {e : Fault}
    (he : pstep ps a = .error e) : BadAnswer ps.s.w e ∨ ps.EmptyChunk a e := by
  rcases hi.step hl with ⟨e', hbad, he'⟩ | he' | ⟨r, s', he', _⟩
  · rw [he'] at he; injection he with he; subst he; exact hbad
  · rw [he'] at he; cases he
  · rw [he'] at he; cases he

/-- C26: no step faults, in release or debug builds, unless the underlying allocator breaks its contract in that very step; the one
exception is the debug assertion described at `PS.EmptyChunk`. -/
theorem C26_no_ub {p0 ps : PS} {K : PBook} (h : PReach p0 ps K) {a : PAct} (hl : PLegal K a) {e : Fault}
    (he : pstep ps a = .error e) : BadAnswer ps.s.w e ∨ ps.EmptyChunk a e := by
  obtain ⟨_, _, _, hi⟩ := h.inv
  exact hi.no_ub hl he

/-- C26: a step changes no byte of a block that is held, however it was obtained, unless the step is the owner's store to
that byte, or it is the reset or drop of the proxy the block was obtained through. -/
theorem C26_frame {p0 ps ps' : PS} {K : PBook} (h : PReach p0 ps K) {a : PAct} (hl : PLegal K a) {r : Option Resp}
    (hs : pstep ps a = .ok (some (r, ps'))) {b : Owned} {x : Nat} (hx : b.Has x) (hw : ∀ v, a ≠ .shared (.write x v))
    (hb : (b ∈ K.direct.owned ∧ ∀ a', a = .shared a' → ¬ a'.isReset) ∨
      ∃ i, b ∈ K.blocks i ∧ a ≠ .reset i ∧ a ≠ .resetUnchecked i ∧ a ≠ .drop i) :
    ps'.s.w.mem x = ps.s.w.mem x := by
  obtain ⟨_, _, _, _, hE⟩ := h.eff hl hs
  obtain ⟨KS, cs, pend, hi⟩ := h.inv
  rcases hb with ⟨hb, hr⟩ | ⟨i, hb, h1⟩
  · exact hE.frame b x hx (.inl hb) hw (by rintro ⟨a', h1, h2⟩; exact hr a' h1 h2)
  · refine hE.frame b x hx (.inr ⟨i, ?_, h1⟩) hw ?_
    · unfold PBook.blocks at hb
      rcases List.mem_append.mp hb with hb | hb
      · right
        cases hp : K.pbusy i with
        | none => rw [hp] at hb; simp at hb
        | some q =>
          rw [hp] at hb
          simp only [Option.bind_some, Option.mem_toList] at hb
          exact ⟨q.1, by rw [← hb]⟩
      · exact .inl hb
    · rintro ⟨a', rfl, h2⟩
      have hlive : K.live i = false := by
        cases hl with
        | sreset _ _ hn => exact hn i
        | call => rcases h2 with h2 | h2 | h2 <;> cases h2
        | go => rcases h2 with h2 | h2 | h2 <;> cases h2
        | write => rcases h2 with h2 | h2 | h2 <;> cases h2
        | pwrite => rcases h2 with h2 | h2 | h2 <;> cases h2
      have hp := hi.px i
      rw [hlive] at hp
      obtain ⟨_, e1, e2, _⟩ := hp.dead
      unfold PBook.blocks at hb
      rw [e1, e2] at hb
      simp at hb

/-- While a proxy's `resize` waits, the block it was given keeps its contents. -/
theorem C26_waiting {p0 ps ps2 : PS} {K K2 : PBook} (h : PReach p0 ps K) {i : Nat} {c : PCall} {b : Owned}
    (hb : K.pbusy i = some (c, some b)) {tr} (hr : PRun ps K tr ps2 K2) (hn : NotBack i tr) :
    PReach p0 ps2 K2 ∧ K2.pbusy i = some (c, some b) ∧ ∀ x, b.Has x → ps2.s.w.mem x = ps.s.w.mem x := by
  induction hr with
  | nil => exact ⟨h, hb, fun _ _ => rfl⟩
  | @snoc tr s K1 a r s' K' hr hl hs ha ih =>
    obtain ⟨h1, h2, h3⟩ := ih (fun ch r hm => hn ch r (List.mem_append_left _ hm))
    have hlast : ∀ ch r', (a, r) ≠ (.shared (.go i ch), some r') := by
      intro ch r' he
      exact hn ch r' (List.mem_append_right _ (by rw [he]; exact List.mem_singleton_self _))
    have h4 : PReach p0 s' K' := by
      obtain ⟨h0, tr0, hr0⟩ := h1
      exact ⟨h0, _, hr0.snoc hl hs ha⟩
    have hbl : b ∈ K1.blocks i := by
      unfold PBook.blocks; rw [h2]; simp
    have hi : ∀ {j : Nat}, K1.Ready j → j ≠ i := by
      rintro j ⟨_, hj, _⟩ he
      subst he
      rw [h2] at hj; cases hj
    refine ⟨h4, ?_, ?_⟩
    · cases ha with
      | direct => exact h2
      | @back t ch _ _ r' hb' =>
        have : i ≠ t := by
          rintro rfl
          exact hlast ch r' rfl
        exact (put_ne _ _ this).trans h2
      | spawn => exact h2
      | allocate =>
        cases hl with
        | allocate hr' _ =>
          cases r with
          | some _ => exact h2
          | none => exact (put_ne _ _ (hi hr').symm).trans h2
      | resize =>
        cases hl with
        | resize hr' _ _ _ =>
          cases r with
          | some _ => exact h2
          | none => exact (put_ne _ _ (hi hr').symm).trans h2
      | deallocate => exact h2
      | reset => exact h2
      | resetUnchecked =>
        cases hl with
        | resetUnchecked hr' =>
          cases r with
          | some _ => exact h2
          | none => exact (put_ne _ _ (hi hr').symm).trans h2
      | drop => exact h2
      | updateMax => exact h2
      | sync => exact h2
    · intro x hx
      rw [← h3 x hx]
      refine C26_frame h1 hl hs hx ?_ (.inr ⟨i, hbl, ?_, ?_, ?_⟩)
      · rintro v rfl
        have key : ∀ o, o.Has x → (o ∈ K1.direct.owned ∨ ∃ j, o ∈ K1.led j) → False := by
          intro o ho hm
          obtain ⟨KS, cs, pend, hinv⟩ := h1.inv
          rcases hm with hm | ⟨j, hm⟩
          · have := C26_no_overlap h1 (ids := [i]) (by simp)
            rw [List.pairwise_append] at this
            exact this.2.2 o hm b (by simpa using hbl) x ⟨ho, hx⟩
          · by_cases hj : j = i
            · subst hj
              have := C26_no_overlap h1 (ids := [j]) (by simp)
              rw [List.pairwise_append] at this
              have := this.2.1
              simp only [List.flatMap_cons, List.flatMap_nil, List.append_nil] at this
              unfold PBook.blocks at this
              rw [List.pairwise_append] at this
              exact this.2.2 b (by rw [h2]; simp) o hm x ⟨hx, ho⟩
            · have := C26_no_overlap h1 (ids := [i, j]) (by simp; omega)
              rw [List.pairwise_append] at this
              have := this.2.1
              simp only [List.flatMap_cons, List.flatMap_nil, List.append_nil] at this
              rw [List.pairwise_append] at this
              exact this.2.2 b hbl o (List.mem_append_right _ hm) x ⟨hx, ho⟩
        cases hl with
        | write hl => cases hl with
          | write hm ho => exact key _ ho (.inl hm)
        | pwrite hm ho => exact key _ ho (.inr ⟨_, hm⟩)
        | sreset ha => rcases ha with h | h | h <;> cases h
      · rintro rfl
        cases hl with | reset hr' => exact hi hr' rfl
      · rintro rfl
        cases hl with | resetUnchecked hr' => exact hi hr' rfl
      · rintro rfl
        cases hl with | drop hr' => exact hi hr' rfl

/-- C26: the block a proxy's `resize` returns starts with the bytes the given block had when the call was made, whether the call
came back at once or after waiting for the shared allocator while everybody else went on. -/
theorem C26_resize_contents {p0 ps ps1 : PS} {K K1 : PBook} (h : PReach p0 ps K) {i p : Nat} {old new : Layout} {r0 : Option Resp}
    (hl : PLegal K (.resize i p old new)) (hs : pstep ps (.resize i p old new) = .ok (some (r0, ps1)))
    (ha : PAfter ps.s.w.mem K (.resize i p old new) r0 K1) {s : Slice} {k : Nat} (hk : k < min new.size old.size) :
    (r0 = some (.block s) → ps1.s.w.mem (s.addr + k) = ps.s.w.mem (p + k)) ∧
    (r0 = none → ∀ tr ps2 K2 ch ps3, PRun ps1 K1 tr ps2 K2 → NotBack i tr →
      pstep ps2 (.shared (.go i ch)) = .ok (some (some (.block s), ps3)) → ps3.s.w.mem (s.addr + k) = ps.s.w.mem (p + k)) := by
  obtain ⟨_, _, _, _, hE⟩ := h.eff hl hs
  refine ⟨fun hr => hE.copied p old new s hr (.inl ⟨i, rfl⟩) k hk, ?_⟩
  rintro rfl tr ps2 K2 ch ps3 hr hn hgo
  cases ha with
  | @resize _ b _ _ _ _ hb hf =>
    have h1 : PReach p0 ps1 (K.enter i ((K.led i).erase b) (.resize p old new) (some b) none) := by
      obtain ⟨h0, tr0, hr0⟩ := h
      exact ⟨h0, _, hr0.snoc hl hs (.resize hb hf)⟩
    obtain ⟨h2, h3, h4⟩ := C26_waiting h1 (i := i) (put_same _ _ _) hr hn
    have hx : b.Has (p + k) := by
      obtain ⟨f1, f2, f3, f4⟩ := hf
      simp only [Owned.Has]
      have := (C26_memory h (.inr ⟨i, List.mem_append_right _ hb⟩)).2.1
      omega
    obtain ⟨_, _, _, _, hE2⟩ := h2.eff .go hgo
    rw [hE2.copied p old new s rfl (.inr ⟨i, ch, _, rfl, h3⟩) k hk, h4 _ hx]
    exact C26_frame h hl hs hx (by simp) (.inr ⟨i, List.mem_append_right _ hb, by simp, by simp, by simp⟩)

theorem PInv.dbusy {p0 ps K KS cs pend} (h : PInv p0 ps K KS cs pend) {t : Nat} (hb : K.direct.busy t ≠ none) : K.pbusy t = none := by
  have hx := h.px t
  revert hx hb
  generalize K.live t = live, K.led t = led, K.pbusy t = pb, K.direct.busy t = db, KS.busy t = kb, cs t = c, pend t = pe, ps.px t = px
  intro hb hx
  cases hx with
  | absent => rfl
  | idle => rfl
  | alloc => exact absurd rfl hb
  | resize => exact absurd rfl hb
  | chain => exact absurd rfl hb

theorem PRun.dsnap {s1 K1 tr s2 K2} (h : PRun s1 K1 tr s2 K2) {t : Nat} {x} (hb : K1.direct.busy t = some x) (hno : NotBack t tr) :
    K2.direct.busy t = some x ∧ K2.direct.snap t = K1.direct.snap t := by
  induction h with
  | nil => exact ⟨hb, rfl⟩
  | @snoc tr s K a r s' K' hr hl hs ha ih =>
    obtain ⟨h1, h2⟩ := ih fun ch r hm => hno ch r (List.mem_append_left _ hm)
    have ent : ∀ {i left c ob}, (K.enter i left c ob r).direct = K.direct := by cases r <;> intros <;> rfl
    cases ha with
    | direct hS hr' =>
      cases hS with
      | @allocate u l =>
        have hne : t ≠ u := fun he => by
          subst he
          cases hl with
          | call hl => cases hl with | allocate hb' => rw [hb'] at h1; cases h1
          | sreset ha => rcases ha with h | h | h <;> cases h
        dsimp only; rw [put_ne _ _ hne, put_ne _ _ hne]; exact ⟨h1, h2⟩
      | @resize u =>
        have hne : t ≠ u := fun he => by
          subst he
          cases hl with
          | call hl => cases hl with | resize hb' => rw [hb'] at h1; cases h1
          | sreset ha => rcases ha with h | h | h <;> cases h
        dsimp only; rw [put_ne _ _ hne, put_ne _ _ hne]; exact ⟨h1, h2⟩
      | @deallocate u =>
        have hne : t ≠ u := fun he => by
          subst he
          cases hl with
          | call hl => cases hl with | deallocate hb' => rw [hb'] at h1; cases h1
          | sreset ha => rcases ha with h | h | h <;> cases h
        dsimp only; rw [put_ne _ _ hne, put_ne _ _ hne]; exact ⟨h1, h2⟩
      | @ret u ch c ob r hb' =>
        have hne : t ≠ u := fun he => by subst he; exact hno ch r (by simp)
        dsimp only; rw [put_ne _ _ hne]; exact ⟨h1, h2⟩
      | _ => exact ⟨h1, h2⟩
    | allocate => rw [ent]; exact ⟨h1, h2⟩
    | resize => rw [ent]; exact ⟨h1, h2⟩
    | resetUnchecked => rw [ent]; exact ⟨h1, h2⟩
    | _ => exact ⟨h1, h2⟩

/-- C26: a `resize` made directly that returns a block returns one holding the old contents as they were when the call was made, and
one that fails leaves the old block with its contents; whatever others, including proxies, do between call and return. -/
theorem C26_direct_resize {p0 ps ps1 ps2 ps3 : PS} {K K1 K2 : PBook} (h : PReach p0 ps K) {t p : Nat} {old new : Layout}
    (hl : PLegal K (.shared (.call t (.resize p old new)))) (hs : pstep ps (.shared (.call t (.resize p old new))) = .ok (some (none, ps1)))
    (ha : PAfter ps.s.w.mem K (.shared (.call t (.resize p old new))) none K1) {tr} (hr : PRun ps1 K1 tr ps2 K2) (hno : NotBack t tr)
    {ch : Choice} {r : Resp} (hret : pstep ps2 (.shared (.go t ch)) = .ok (some (some r, ps3))) :
    (∃ blk, r = .block blk ∧ ∀ i, i < min old.size new.size → ps3.s.w.mem (blk.addr + i) = ps.s.w.mem (p + i)) ∨
    (∃ b ∈ K.direct.owned, r = .err ∧ b.Fits p old ∧ (∀ x, b.Has x → ps3.s.w.mem x = ps.s.w.mem x) ∧
      ∃ K3, PReach p0 ps3 K3 ∧ K3.direct.owned = b :: K2.direct.owned) := by
  obtain ⟨h0, tr0, hr0⟩ := h
  have h2 : PReach p0 ps2 K2 := ⟨h0, _, (hr0.snoc hl hs ha).trans hr⟩
  cases ha with
  | direct hS hr' =>
    cases hS with
    | @resize _ b _ _ _ ho hf =>
      obtain ⟨hb2, hsn⟩ := hr.dsnap (t := t) (put_same _ _ _) hno
      dsimp only at hsn
      rw [put_same] at hsn
      obtain ⟨KS, cs, pend, hi⟩ := h2.inv
      have hpb : K2.pbusy t = none := hi.dbusy (by rw [hb2]; simp)
      have hsk := hi.snap t (by rw [hb2]; simp)
      have hkb := (hi.busyD hpb).symm.trans hb2
      have hret0 := hret
      simp only [pstep] at hret
      obtain ⟨z, hz, hret⟩ := ebind_inv hret
      have hw : ∃ s', sstep ps2.s (.go t ch) = .ok (some (some r, s')) ∧ ps3.s = s' := by
        cases z with
        | none => cases hret
        | some y =>
          obtain ⟨r', s'⟩ := y
          cases r' with
          | none => injection hret with hret; injection hret with hret; injection hret with h1 _; cases h1
          | some r' =>
            have hidle : ∀ q, ps2.px t = some q → q.pc = .idle := by
              intro q hq
              have hx := hi.px t
              rw [hpb, hq] at hx
              revert hx
              generalize K2.live t = live, K2.led t = led, K2.direct.busy t = db, KS.busy t = kb, cs t = c, pend t = pe
              intro hx
              cases hx with
              | idle => rfl
            dsimp only at hret
            split at hret
            · rename_i q hq
              rw [if_pos (hidle q hq)] at hret
              injection hret with hret; injection hret with hret; injection hret with h1 h2
              injection h1 with h1
              subst h1; subst h2
              exact ⟨s', hz, rfl⟩
            · injection hret with hret; injection hret with hret; injection hret with h1 h2
              injection h1 with h1
              subst h1; subst h2
              exact ⟨s', hz, rfl⟩
      obtain ⟨s', hz', rfl⟩ := hw
      rcases resize_ret hi.reach hkb hz' with ⟨blk, h3, h4⟩ | ⟨b', h3, h4, h5, h6⟩
      · exact .inl ⟨blk, h3, fun i hi => by rw [h4 i hi, hsk, hsn]⟩
      · injection h4 with h4
        subst h4 h3
        exact .inr ⟨b, ho, rfl, h5, fun x hx => by rw [h6 x hx, hsk, hsn], _,
          ⟨h0, _, ((hr0.snoc hl hs (.direct (.resize ho hf) hr')).trans hr).snoc .go hret0
            (.direct (.ret hb2) (.inr fun t' ch' he => by injection he with he _; subst he; exact hpb))⟩, rfl⟩

/-- What happens while thread 2 is inside. -/
def dresizeActs : List PAct := [.allocate 0 ⟨24, 8⟩] ++ pgoes 0 4 ++ pgoes 2 8

/-- The history of the example below, from the call on (an example; no counterpart in the source). -/
def dresizeCheck (ps : PS) (K : PBook) : Bool :=
  match pstep ps (.shared (.call 2 (.resize 65568 ⟨4, 4⟩ ⟨40, 16⟩))) with
  | .ok (some (none, ps1)) => match pbook ps.s.w.mem K (.shared (.call 2 (.resize 65568 ⟨4, 4⟩ ⟨40, 16⟩))) none with
    | some K1 => match pexecAll ps1 K1 dresizeActs with
      | some (rs, ps2, _) => (match pstep ps2 (.shared (.go 2 fresh)) with
        | .ok (some (some r, _)) => decide (r = .block ⟨65664, 40⟩)
        | _ => false) && decide (ps.s.w.mem 65570 = .raw 7) &&
        decide ((PAct.shared (.go 0 fresh), some (Resp.block ⟨65624, 24⟩)) ∈ dresizeActs.zip rs) &&
        (dresizeActs.zip rs).all (fun x => match x with
          | (.shared (.go 2 _), some _) => false
          | _ => true)
      | none => false
    | none => false
  | _ => false

/-- The hypotheses of `C26_direct_resize` are met: thread 2's block is moved by its `resize` while proxy 0 allocates and gets its first
chunk. -/
example : ∃ p0 ps K ps1 K1 tr ps2 K2 ps3, PReach p0 ps K ∧ PLegal K (.shared (.call 2 (.resize 65568 ⟨4, 4⟩ ⟨40, 16⟩))) ∧
    pstep ps (.shared (.call 2 (.resize 65568 ⟨4, 4⟩ ⟨40, 16⟩))) = .ok (some (none, ps1)) ∧
    PAfter ps.s.w.mem K (.shared (.call 2 (.resize 65568 ⟨4, 4⟩ ⟨40, 16⟩))) none K1 ∧ PRun ps1 K1 tr ps2 K2 ∧ NotBack 2 tr ∧
    pstep ps2 (.shared (.go 2 fresh)) = .ok (some (some (.block ⟨65664, 40⟩), ps3)) ∧ ps.s.w.mem 65570 = .raw 7 ∧
    (PAct.shared (.go 0 fresh), some (.block ⟨65624, 24⟩)) ∈ tr := by
  obtain ⟨rs, ps, K, h0, hr, _, hf⟩ := of_pdemoAt (sizes := [4096, 8192]) (m := 1024)
    (as := [.spawn 0 0, .shared (.call 2 (.allocate ⟨4, 4⟩))] ++ pgoes 2 5 ++ [.shared (.call 2 (.allocate ⟨16, 8⟩))] ++ pgoes 2 4 ++
      [.shared (.write 65570 (.raw 7))])
    (f := fun _ ps K => dresizeCheck ps K) (by decide +kernel)
  unfold dresizeCheck at hf
  split at hf
  · rename_i ps1 h1
    split at hf
    · rename_i K1 h2
      split at hf
      · rename_i rs' ps2 K2 h3
        simp only [Bool.and_eq_true, decide_eq_true_eq] at hf
        obtain ⟨⟨⟨h4, h5⟩, h6⟩, h7⟩ := hf
        split at h4
        · rename_i r ps3 h8
          simp only [decide_eq_true_eq] at h4
          subst h4
          refine ⟨_, ps, K, ps1, K1, _, ps2, K2, ps3, ⟨h0, _, hr⟩, (pbook_sound h2).1, h1, (pbook_sound h2).2, (pexecAll_sound h3).1,
            ?_, h8, h5, h6⟩
          intro ch r hm
          have := List.all_eq_true.mp h7 _ hm
          cases this
        · cases h4
      · cases hf
    · cases hf
  · cases hf

/-- The hypotheses of C26 are met by three parties with blocks, one of which is waiting in a `resize` that has to move. -/
example : ∃ p0 ps K, PReach p0 ps K ∧ K.direct.owned.length = 1 ∧ (K.blocks 1).length = 1 ∧ K.led 0 = [] ∧
    K.blocks 0 = [⟨65600, 100, 100, 8⟩] ∧ K.pbusy 0 = some (.resize 65600 ⟨100, 8⟩ ⟨300, 16⟩, some ⟨65600, 100, 100, 8⟩) ∧
    ps.s.w.mem 65605 = .raw 7 := by
  obtain ⟨rs, ps, K, h0, hr, _, hf⟩ := of_pdemoAt (sizes := [4096, 8192]) (m := 1024) (as := pdemoActs) (f := fun _ ps K =>
    decide (K.direct.owned.length = 1) && decide ((K.blocks 1).length = 1) && decide (K.led 0 = []) &&
    decide (K.blocks 0 = [⟨65600, 100, 100, 8⟩]) &&
    decide (K.pbusy 0 = some (.resize 65600 ⟨100, 8⟩ ⟨300, 16⟩, some ⟨65600, 100, 100, 8⟩)) &&
    decide (ps.s.w.mem 65605 = .raw 7)) (by decide +kernel)
  simp only [Bool.and_eq_true, decide_eq_true_eq] at hf
  exact ⟨_, ps, K, ⟨h0, _, hr⟩, hf.1.1.1.1.1, hf.1.1.1.1.2, hf.1.1.1.2, hf.1.1.2, hf.1.2, hf.2⟩

theorem ub_of {α : Type} {x : Except Fault α} {s : String}
    (h : (match x with | .error (.ub t) => t == s | _ => false) = true) : x = .error (.ub s) := by
  split at h
  · rw [eq_of_beq h]
  · cases h

/-- The size bound in the contract of proxies is needed: `alloc_chunk` builds a `Layout` with `from_size_align_unchecked`
whose size exceeds `isize::MAX` for some valid layouts, in a reachable state. -/
theorem C26_huge_request_faults : ∃ p0 ps K l, PReach p0 ps K ∧ K.Ready 0 ∧ l.Valid ∧ ¬ l.Modest ∧
    pstep ps (.allocate 0 l) = .error (.ub "from_size_align_unchecked") := by
  have hl : PLegal PBook.empty (.spawn 0 0) := .spawn rfl
  refine ⟨pdemoStart [], _, _, ⟨9223372036854775792, 8⟩, ⟨pdemoStart_start [] 1024 (by decide), _, PRun.nil.snoc hl rfl .spawn⟩,
    ⟨by simp [put], rfl, rfl⟩, ⟨⟨3, rfl⟩, by decide⟩, ?_, ?_⟩
  · rintro ⟨_, h⟩
    simp only [HUGE] at h
    omega
  · exact ub_of (by decide +kernel)

/-- The result is the failure of the debug assertion `s`. -/
def isDbg {α : Type} (s : String) : Except Fault α → Bool
  | .error (.dbg t) => t == s
  | _ => false

theorem isDbg_eq {α : Type} {x : Except Fault α} {s : String} (h : isDbg s x = true) : x = .error (.dbg s) := by
  unfold isDbg at h
  split at h
  · rw [eq_of_beq h]
  · cases h

/-- The exception in `C26_no_ub` occurs: in a debug build the first proxy, asked for zero bytes before anything else, fails the
assertion `len > size_of::<Self>()`. -/
theorem C26_debug_empty_chunk : ∃ p0 ps K i, PReach p0 ps K ∧ PLegal K (.shared (.go i fresh)) ∧
    ps.EmptyChunk (.shared (.go i fresh)) (.dbg "init_chunk: len > size_of::<Self>()") ∧
    pstep ps (.shared (.go i fresh)) = .error (.dbg "init_chunk: len > size_of::<Self>()") := by
  obtain ⟨rs, ps, K, h0, hr, _, hf⟩ := of_pdemoAt (sizes := [4096]) (m := 1024) (as := [.spawn 0 0, .allocate 0 ⟨0, 1⟩] ++ pgoes 0 4)
    (f := fun _ ps K => decide (ps.s.w.debug = true) && decide (ps.px 0 = some ⟨⟨0, 0⟩, .alloc ⟨0, 1⟩⟩) &&
      isDbg "init_chunk: len > size_of::<Self>()" (pstep ps (.shared (.go 0 fresh)))) (by decide +kernel)
  simp only [Bool.and_eq_true, decide_eq_true_eq] at hf
  exact ⟨_, ps, K, 0, ⟨h0, _, hr⟩, .go, ⟨hf.1.1, rfl, 0, fresh, ⟨0, 1⟩, rfl, hf.1.2, rfl, by decide⟩, isDbg_eq hf.2⟩

/-! ### C27 -/

/-- C27: whatever a proxy had as its last chunk when it was dropped or reset, every proxy created with knowledge of that starts
with at least that chunk size. -/
theorem C27_new_proxy {p0 ps ps1 ps2 ps3 : PS} {K K1 K2 : PBook} (h : PReach p0 ps K) {i j k : Nat} {a : PAct}
    (ha : a = .reset i ∨ a = .drop i) (hl : PLegal K a) {r} (hs : pstep ps a = .ok (some (r, ps1)))
    (hK : PAfter ps.s.w.mem K a r K1) {tr} (hr : PRun ps1 K1 tr ps2 K2) (hk : Knows tr i j) {r'}
    (hsp : pstep ps2 (.spawn j k) = .ok (some (r', ps3))) :
    ∃ m, ps3.px j = some ⟨⟨0, m⟩, .idle⟩ ∧ ps.lastCap i ≤ m := by
  have h1 : ps.lastCap i ≤ ps1.view i := by
    cases pstep_max hs with
    | same _ hne =>
      rcases ha with rfl | rfl
      · exact absurd rfl (hne i).1
      · exact absurd rfl (hne i).2.1
    | load hne => rcases ha with rfl | rfl <;> cases hne
    | @max t v e hv =>
      rcases hv with rfl | ⟨hv, rfl⟩
      · rcases ha with hv | hv <;> cases hv
      · have : t = i := by
          rcases ha with rfl | rfl <;> rcases hv with hv | hv <;> cases hv <;> rfl
        subst this
        rw [e.2]
        exact (h.histOK.fetchMax _ _).2.2
    | sync hne => rcases ha with rfl | rfl <;> cases hne
  have h2 : ps1.view i ≤ ps2.view j := by
    obtain ⟨h0, tr0, hr0⟩ := h
    have h1 : PReach p0 ps1 K1 := ⟨h0, _, hr0.snoc hl hs hK⟩
    exact hr.knows h1.histOK hk
  cases pstep_max hsp with
  | same _ hne => exact absurd rfl ((hne j).2.2.1 k)
  | @load i' k' ha' h3 h4 =>
    injection ha' with e1 e2
    subst e1; subst e2
    exact ⟨_, by rw [h4, PS.setPx_same]; rfl, by omega⟩
  | max _ hv => rcases hv with hv | ⟨hv | hv, _⟩ <;> cases hv
  | sync hne => cases hne

/-- C27: a proxy created with knowledge of the creation of another one starts with at least the same chunk size. -/
theorem C27_never_decreases {p0 ps ps1 ps2 ps3 : PS} {K K1 K2 : PBook} (h : PReach p0 ps K) {i j k k' : Nat}
    (hl : PLegal K (.spawn i k)) {r} (hs : pstep ps (.spawn i k) = .ok (some (r, ps1)))
    (hK : PAfter ps.s.w.mem K (.spawn i k) r K1) {tr} (hr : PRun ps1 K1 tr ps2 K2) (hk : Knows tr i j) {r'}
    (hsp : pstep ps2 (.spawn j k') = .ok (some (r', ps3))) :
    ∃ m m', ps1.px i = some ⟨⟨0, m⟩, .idle⟩ ∧ ps3.px j = some ⟨⟨0, m'⟩, .idle⟩ ∧ m ≤ m' := by
  have key : ∀ {q q' : PS} {i k r}, pstep q (.spawn i k) = .ok (some (r, q')) →
      q'.px i = some ⟨⟨0, q'.view i⟩, .idle⟩ ∧ q.view i ≤ q'.view i := by
    intro q q' i k r hs
    cases pstep_max hs with
    | same _ hne => exact absurd rfl ((hne i).2.2.1 k)
    | @load i' k' ha' h3 h4 =>
      injection ha' with e1 e2
      subst e1; subst e2
      subst h4
      have : ∀ v p, ((q.setView i v).setPx i p).view i = v := fun v p => if_pos rfl
      rw [PS.setPx_same, this]
      exact ⟨rfl, h3⟩
    | max _ hv => rcases hv with hv | ⟨hv | hv, _⟩ <;> cases hv
    | sync hne => cases hne
  obtain ⟨a1, _⟩ := key hs
  obtain ⟨b1, b2⟩ := key hsp
  refine ⟨_, _, a1, b1, Nat.le_trans ?_ b2⟩
  obtain ⟨h0, tr0, hr0⟩ := h
  have h1 : PReach p0 ps1 K1 := ⟨h0, _, hr0.snoc hl hs hK⟩
  exact hr.knows h1.histOK hk

/-- C27: `max_local_alloc` itself never decreases, under any interleaving. -/
theorem C27_variable {p0 ps ps' : PS} {K K' : PBook} (h : PReach p0 ps K) {tr} (hr : PRun ps K tr ps' K') :
    ps.hist.headD 0 ≤ ps'.hist.headD 0 ∧ ps'.hist.Pairwise (· ≥ ·) := by
  obtain ⟨h1, h2⟩ := hr.hist h.histOK
  exact ⟨h2.head, h1.sorted⟩

/-- C27: the chunk size a proxy starts with is what it asks the shared allocator for, at least, plus the chunk header. -/
theorem C27_first_chunk {p0 ps ps' : PS} {K : PBook} (h : PReach p0 ps K) {j m : Nat} (hp : ps.px j = some ⟨⟨0, m⟩, .idle⟩) {l : Layout}
    (hl : PLegal K (.allocate j l)) {r} (hs : pstep ps (.allocate j l) = .ok (some (r, ps'))) :
    r = some .err ∨ r = none ∧ ∃ R, ps'.s.pcs j = .rd (.allocate ⟨R, 8⟩) ∧ m + 32 ≤ R ∧ l.size + 32 ≤ R := by
  obtain ⟨KS, cs, pend, hi⟩ := h.inv
  cases hl with
  | allocate hrdy hmod =>
    obtain ⟨r1, r2, r3⟩ := hrdy
    have hpx := hi.px j
    rw [r1, r2] at hpx
    obtain ⟨m', hpx', hv, hL, hm, hbusy, hpend⟩ := hpx.ready
    rw [hp] at hpx'
    injection hpx' with hpx'; injection hpx' with hpx' _; injection hpx' with e1 e2
    subst e2
    have hcs : cs j = [] := (rootOf_eq_zero hv.ok).mp e1.symm
    simp only [pstep, hp] at hs
    have hfast : BA.allocFast ⟨0, m⟩ l ps.s.w = .ok (none, ps.s.w) := rfl
    rw [ebind_ok hfast] at hs
    simp only at hs
    have hreq := chunkRequest_core hv (hi.acc_left j) (needBound hv hi.top hm hmod) fun R hR => reqBound hv hi.top hm hmod hR
    rw [hcs] at hreq
    rw [ebind_ok (show chunkRequest (BA.root ⟨0, m⟩) (BA.minChunk ⟨0, m⟩) l ps.s.w = _ from hreq)] at hs
    simp only at hs
    cases hR : chunkReq (rootCum []) m l with
    | none =>
      rw [hR] at hs
      injection hs with hs; injection hs with hs; injection hs with hs _
      exact .inl hs.symm
    | some R =>
      rw [hR] at hs
      simp only at hs
      unfold PS.ask at hs
      split at hs
      · injection hs with hs; injection hs with hs; injection hs with h1 h2
        subst h1; subst h2
        have := (chunkReq_facts hR).1
        have e : need (rootCum []) m l = max m l.size + (if 8 < l.align then l.align else 0) + 32 := rfl
        rw [e] at this
        refine .inr ⟨rfl, R, ?_, by omega, by omega⟩
        exact SS.setPc_same _ _ _
      · cases hs

/-- C27 without the condition that the new proxy's creator knows of the drop. -/
def C27_unsynchronised : Prop :=
  ∀ {p0 ps ps1 ps2 ps3 : PS} {K K1 K2 : PBook}, PReach p0 ps K → ∀ {i j k : Nat}, PLegal K (.drop i) → ∀ {r},
    pstep ps (.drop i) = .ok (some (r, ps1)) → PAfter ps.s.w.mem K (.drop i) r K1 → ∀ {tr}, PRun ps1 K1 tr ps2 K2 →
    ∀ {r'}, pstep ps2 (.spawn j k) = .ok (some (r', ps3)) → ∃ m, ps3.px j = some ⟨⟨0, m⟩, .idle⟩ ∧ ps.lastCap i ≤ m

theorem C27_unsynchronised_false : ¬ C27_unsynchronised := by
  intro hall
  obtain ⟨rs, ps, K, h0, hr, _, hf⟩ := of_pdemoAt (sizes := [4096]) (m := 1024)
    (as := [.spawn 0 0, .allocate 0 ⟨100, 8⟩] ++ pgoes 0 5) (f := fun _ ps K =>
      K.readyB 0 && decide (0 < ps.lastCap 0) &&
      match pstep ps (.drop 0) with
      | .ok (some (some .unit, ps1)) =>
        (match pstep ps1 (.spawn 1 1) with
        | .ok (some (_, ps3)) => decide (ps3.px 1 = some ⟨⟨0, 0⟩, .idle⟩)
        | _ => false)
      | _ => false) (by decide +kernel)
  simp only [Bool.and_eq_true, decide_eq_true_eq] at hf
  obtain ⟨⟨h1, h2⟩, h3⟩ := hf
  split at h3
  · rename_i ps1 hd
    split at h3
    · rename_i r ps3 hsp
      rw [decide_eq_true_eq] at h3
      obtain ⟨m, e1, e2⟩ := hall ⟨h0, _, hr⟩ (.drop (PBook.readyB_sound h1)) hd .drop .nil hsp
      rw [h3] at e1
      injection e1 with e1; injection e1 with e1 _; injection e1 with _ e1
      omega
    · cases h3
  · cases h3

/-- The hypotheses of `C27_new_proxy` can be met: proxy 0 has a chunk of 480 bytes, is dropped, tells 3, who creates a proxy. -/
example : ∃ p0 ps K ps1 ps2 ps3 r', PReach p0 ps K ∧ ps.lastCap 0 = 480 ∧ PLegal K (.drop 0) ∧
    pstep ps (.drop 0) = .ok (some (some .unit, ps1)) ∧ pstep ps1 (.sync 0 3) = .ok (some (none, ps2)) ∧
    Knows [(.sync 0 3, none)] 0 3 ∧ pstep ps2 (.spawn 3 0) = .ok (some (r', ps3)) ∧ ps3.px 3 = some ⟨⟨0, 480⟩, .idle⟩ := by
  obtain ⟨rs, ps, K, h0, hr, _, hf⟩ := of_pdemoAt (sizes := [4096]) (m := 1024)
    (as := [.spawn 0 0, .allocate 0 ⟨300, 8⟩] ++ pgoes 0 5) (f := fun _ ps K =>
      K.readyB 0 && decide (ps.lastCap 0 = 480) &&
      match pstep ps (.drop 0) with
      | .ok (some (some .unit, ps1)) =>
        (match pstep ps1 (.sync 0 3) with
        | .ok (some (none, ps2)) =>
          (match pstep ps2 (.spawn 3 0) with
          | .ok (some (_, ps3)) => decide (ps3.px 3 = some ⟨⟨0, 480⟩, .idle⟩)
          | _ => false)
        | _ => false)
      | _ => false) (by decide +kernel)
  simp only [Bool.and_eq_true, decide_eq_true_eq] at hf
  obtain ⟨⟨h1, h2⟩, h3⟩ := hf
  split at h3
  · rename_i ps1 hd
    split at h3
    · rename_i ps2 hy
      split at h3
      · rename_i r ps3 hsp
        rw [decide_eq_true_eq] at h3
        exact ⟨_, ps, K, ps1, ps2, ps3, r, ⟨h0, _, hr⟩, h2, .drop (PBook.readyB_sound h1), hd, hy, .sync (tr := []) .self, hsp, h3⟩
      · cases h3
    · cases h3
  · cases h3

/-! ### C28 -/

/-- C28: no call to a proxy, in particular no reset and no drop, exchanges anything with the underlying allocator. -/
theorem C28_proxies_free_nothing {p0 ps ps' : PS} {K : PBook} (h : PReach p0 ps K) {a : PAct} (hl : PLegal K a)
    (ha : ∀ a', a ≠ .shared a') {r} (hs : pstep ps a = .ok (some (r, ps'))) :
    ps'.s.w.log = ps.s.w.log ∧ ps'.s.w.held = ps.s.w.held := by
  obtain ⟨_, _, _, _, hE⟩ := h.eff hl hs
  have := hE.mem ha
  rw [this]
  exact ⟨rfl, rfl⟩

/-- C28: nor does any step inside the shared allocator (including those of a proxy's `reset_unchecked` giving its chunks back
to the shared allocator) give anything back to the underlying allocator; only resets of the shared allocator do. -/
theorem C28_only_shared_resets_free {p0 ps ps' : PS} {K : PBook} (h : PReach p0 ps K) {a : PAct} (hl : PLegal K a)
    (ha : ∀ a', a = .shared a' → ¬ a'.isReset) {r} (hs : pstep ps a = .ok (some (r, ps'))) :
    (∃ new, ps'.s.w.log = new ++ ps.s.w.log ∧ ∀ a l, .dealloc a l ∉ new) ∧ ∀ b ∈ ps.s.w.held, b ∈ ps'.s.w.held := by
  obtain ⟨_, _, _, _, hE⟩ := h.eff hl hs
  have := hE.quiet (by rintro ⟨a', h1, h2⟩; exact ha a' h1 h2)
  exact ⟨this.log, this.held⟩

/-- C28: nothing is ever given back twice or without having been obtained: every block given back was open at that moment and
is given back with its layout. -/
theorem C28_frees_fit {p0 ps : PS} {K : PBook} (h : PReach p0 ps K) :
    FreesOK ps.s.w.log ∧ (openBlocks ps.s.w.log).Pairwise (fun b c => b.addr ≠ c.addr) := by
  obtain ⟨KS, cs, pend, hi⟩ := h.inv
  obtain ⟨cs0, B0, hI⟩ := hi.reach.inv
  refine ⟨hI.log.2, ?_⟩
  rw [hI.log.1]
  have hp := (List.pairwise_append.mp hI.arena.pairwise).1
  rw [List.pairwise_map] at *
  refine hp.imp_of_mem ?_
  intro c d hc hd hdis
  have hc' := hI.arena.ok c hc
  have hd' := hI.arena.ok d hd
  have := hc'.lo; have := hc'.hi; have := hd'.lo; have := hd'.hi
  simp only [BaseBlk.Disjoint, Chunk.blk] at *
  omega

/-- C28: a reset of the shared allocator, after any history of proxies, completes and gives back, once each and with their
lengths, all blocks held from the underlying allocator except the newest one, which stays. -/
theorem C28_shared_reset {p0 ps : PS} {K : PBook} (h : PReach p0 ps K) (hl : PLegal K (.shared .reset)) :
    ∃ ps', pstep ps (.shared .reset) = .ok (some (none, ps')) ∧
      ps'.s.w.log = (((openBlocks ps.s.w.log).drop 1).map fun b => .dealloc b.addr ⟨b.len, 8⟩).reverse ++ ps.s.w.log ∧
      openBlocks ps'.s.w.log = (openBlocks ps.s.w.log).take 1 ∧
      ps'.s.w.held.Perm ((openBlocks ps.s.w.log).take 1 ++ p0.s.w.held) := by
  obtain ⟨KS, cs, pend, hi⟩ := h.inv
  obtain ⟨cs0, B0, hI⟩ := hi.reach.inv
  have hs : sstep ps.s .reset = .ok (some (none, { ps.s with w := resetWorld ps.s.w cs0, root := rootOf (resetChunks cs0), seen := [] })) := by
    simp only [sstep, resetStep]
    rw [hI.root, ebind_ok (arenaReset_keep hI.arena)]
    rfl
  have hp : pstep ps (.shared .reset) = .ok (some (none, { ps with s := { ps.s with w := resetWorld ps.s.w cs0, root := rootOf (resetChunks cs0), seen := [] } })) := by
    simp only [pstep]
    rw [ebind_ok hs]; rfl
  refine ⟨_, hp, ?_, ?_⟩
  · rw [hI.log.1]
    cases cs0 with
    | nil => rfl
    | cons c t =>
      show (freeAll (rewound ps.s.w c) t).log = _
      rw [(freeAll_fields _ _).2.2.2.2]
      simp only [List.map_cons, List.drop_succ_cons, List.drop_zero, List.map_map]
      rfl
  · have hK := PAfter.direct (m := ps.s.w.mem) (K := K) (a := .reset) (r := none) (.reset) (.inl rfl)
    obtain ⟨h0, tr, hr⟩ := h
    have h' := PReach.inv ⟨h0, _, hr.snoc hl hp hK⟩
    have e : openBlocks (resetWorld ps.s.w cs0).log = (openBlocks ps.s.w.log).take 1 := by
      have h1 := (OpRes.log (m := ps.s.minChunk) (op := .reset) (cs' := resetChunks cs0) hI.arena ⟨rfl, rfl, rfl⟩ hI.log).1
      rw [h1, hI.log.1]
      cases cs0 <;> rfl
    refine ⟨e, ?_⟩
    rw [← e]
    obtain ⟨KS', cs', pend', hi'⟩ := h'
    exact C22_held hi'.reach

/-- The hypotheses of `C28_shared_reset` are met after two proxies had chunks, one of them gave a chunk back, and both were dropped;
and those of `C27_new_proxy` by those drops: the second drop reports 480. -/
example : ∃ p0 ps K, PReach p0 ps K ∧ PLegal K (.shared .reset) ∧ (openBlocks ps.s.w.log).length = 2 ∧ ps.hist = [480, 480, 32, 0] := by
  obtain ⟨rs, ps, K, h0, hr, hsm, hf⟩ := of_pdemoAt (sizes := [700, 8192]) (m := 128) (as := pdemoActs2) (f := fun _ ps K =>
    (List.range 8).all (fun i => decide (K.live i = false) && decide (K.direct.busy i = none)) &&
    decide ((openBlocks ps.s.w.log).length = 2) && decide (ps.hist = [480, 480, 32, 0])) (by decide +kernel)
  simp only [Bool.and_eq_true, decide_eq_true_eq, List.all_eq_true, List.mem_range] at hf
  refine ⟨_, ps, K, ⟨h0, _, hr⟩, .sreset (.inl rfl) (.reset fun t => ?_) (fun t => ?_), hf.1.2, hf.2⟩
  · by_cases ht : t < 8
    · exact (hf.1.1 t ht).2
    · exact (hsm t (by omega)).2
  · by_cases ht : t < 8
    · exact (hf.1.1 t ht).1
    · exact (hsm t (by omega)).1

end Blink
