import Verif.Props.ProxyRoom
import Verif.Props.ProxyReset
/-
  C96: a proxy whose newest chunk is large enough for what is asked of it between two resets never waits for the shared allocator,
  whatever the other threads and proxies do.
-/
namespace Blink

/-- What a call of proxy `i` may take from the room of the proxy: size, and padding for the alignment. -/
def PAct.cost (i : Nat) : PAct → Nat
  | .allocate j l => if j = i then l.size + l.align - 1 else 0
  | .resize j _ _ new => if j = i then new.size + new.align - 1 else 0
  | _ => 0

/-- Cost of the calls of proxy `i` since its last `reset`, and the largest such cost so far, after one more action. -/
def PAct.round (i : Nat) (p : Nat × Nat) (x : PAct × Option Resp) : Nat × Nat :=
  if x.1 = .reset i then (0, p.2) else (p.1 + x.1.cost i, max p.2 (p.1 + x.1.cost i))

/-- The largest cost of calls of proxy `i` between two of its `reset`s, the beginning and the end of the history. -/
def pworst (i : Nat) (tr : List (PAct × Option Resp)) : Nat := (tr.foldl (PAct.round i) (0, 0)).2

/-- The same since the last `reset`. -/
def pspent (i : Nat) (tr : List (PAct × Option Resp)) : Nat := (tr.foldl (PAct.round i) (0, 0)).1

theorem pworst_snoc {i tr x} : pworst i (tr ++ [x]) = (PAct.round i (pspent i tr, pworst i tr) x).2 := by
  unfold pworst pspent; rw [List.foldl_append]; rfl

theorem pspent_snoc {i tr x} : pspent i (tr ++ [x]) = (PAct.round i (pspent i tr, pworst i tr) x).1 := by
  unfold pworst pspent; rw [List.foldl_append]; rfl

/-- A proxy that is not executing a call. -/
theorem PInv.resting {p0 ps K KS cs pend} (hi : PInv p0 ps K KS cs pend) {i} (h1 : K.live i = true) (h2 : K.pbusy i = none) :
    ∃ m, ps.px i = some ⟨⟨rootOf (cs i), m⟩, .idle⟩ ∧ VInv ps.s.w (cs i) := by
  have hpx := hi.px i
  rw [h1, h2] at hpx
  obtain ⟨m, hpx', hv, _⟩ := hpx.ready
  exact ⟨m, hpx', hv⟩

/-- What others do, and direct calls of the same thread, leave a resting proxy as it is. -/
theorem PReach.others {p0 ps ps' : PS} {K : PBook} (h : PReach p0 ps K) {i : Nat} (hv : K.live i = true) (hb : K.pbusy i = none)
    {a : PAct} (hl : PLegal K a) {r} (hs : pstep ps a = .ok (some (r, ps'))) (ha : a.proxy ≠ some i) :
    ps'.px i = ps.px i ∧ ps'.room i = ps.room i := by
  obtain ⟨KS, cs, pend, hi, hE⟩ := h.eff hl hs
  obtain ⟨m, hp, hV⟩ := hi.resting hv hb
  have hpx : ps'.px i = ps.px i := by
    by_cases hgo : ∃ ch, a = .shared (.go i ch)
    · obtain ⟨ch, rfl⟩ := hgo
      simp only [pstep] at hs
      obtain ⟨x, _, hs⟩ := ebind_inv hs
      rcases x with _ | ⟨_ | v, s'⟩
      · cases hs
      · injection hs with hs; injection hs with hs; injection hs with _ hs
        subst hs; rfl
      · simp only [hp] at hs
        injection hs with hs; injection hs with hs; injection hs with _ hs
        subst hs; rfl
    · refine pstep_px hs ?_
      cases hl with
      | call => simp [PAct.who]
      | @go t ch =>
        intro he
        injection he with he
        exact hgo ⟨ch, by rw [← he]⟩
      | write => simp [PAct.who]
      | pwrite => simp [PAct.who]
      | sreset hr => rcases hr with rfl | rfl | rfl <;> simp [PAct.who]
      | spawn hn =>
        intro he
        injection he with he
        subst he
        rw [hv] at hn; cases hn
      | allocate => exact ha
      | resize => exact ha
      | deallocate => exact ha
      | reset => exact ha
      | resetUnchecked => exact ha
      | drop => exact ha
      | updateMax => simp [PAct.who]
      | sync => simp [PAct.who]
  refine ⟨hpx, ?_⟩
  have hhdr : ∀ c ∈ cs i, ∀ x, c.start ≤ x → x < c.start + 32 → ps'.s.w.mem x = ps.s.w.mem x := by
    intro c hc x h1 h2
    have hok := hV.ok c hc
    have hin : InCs (cs i ++ pend i) x := ⟨c, List.mem_append_left _ hc, h1, by have := hok.lo; have := hok.hi; omega⟩
    refine hE.kept i x hin ?_ ha
    rintro v rfl
    have key : ∀ {b : Owned}, b.Has x → (b ∈ K.direct.owned ∨ ∃ j, b ∈ K.led j) → False := by
      rintro b hx (hm | ⟨j, hm⟩)
      · exact hi.sepD hm hx hin
      · by_cases hj : i = j
        · subst hj
          exact hi.hdr_used (hi.led_used (.inl hm) hx) (List.mem_append_left _ hc) h1 h2
        · exact hi.sep hj (hi.led_inCs (.inl hm) hx) hin
    cases hl with
    | write hw => cases hw with
      | write hm hx => exact key hx (.inl hm)
    | pwrite hm hx => exact key hx (.inr ⟨_, hm⟩)
    | sreset hr => rcases hr with hr | hr | hr <;> cases hr
  have hrep := hV.rep.congr hhdr
  rw [PS.room_of hp hV]
  unfold PS.room
  rw [hpx, hp]
  simp only [St.room]
  generalize hcs : cs i = csi at *
  cases csi with
  | nil => rfl
  | cons c t =>
    have hne : rootOf (c :: t) ≠ 0 := by rw [Ne, rootOf_eq_zero hV.ok]; simp
    rw [if_neg hne]
    have h1 : HdrAt ps'.s.w.mem c (rootOf t) := hrep.1
    simp only [rootOf, decodeWord_of h1.1, decodeWord_of h1.2.1, List.head?_cons, Option.map_some]

/-- C96: a call of a proxy for which the room left is large enough, padding included, comes back at once and succeeds. It takes no more than its cost from the
room, and nothing happens at the shared allocator nor at the underlying one. -/
theorem C96_at_once {p0 ps : PS} {K : PBook} (h : PReach p0 ps K) {i : Nat} {a : PAct} (hl : PLegal K a) (ha : a.proxy = some i)
    (hn : a ≠ .reset i ∧ a ≠ .resetUnchecked i ∧ a ≠ .drop i) {pos e : Nat} (hroom : ps.room i = some (pos, e))
    (hc : pos + a.cost i ≤ e) :
    ∃ r ps' pos', pstep ps a = .ok (some (some r, ps')) ∧ r ≠ .err ∧ ps'.px = ps.px ∧ ps'.room i = some (pos', e) ∧ pos ≤ pos' ∧
      pos' ≤ pos + a.cost i ∧ ps'.s.pcs = ps.s.pcs ∧ ps'.s.w.log = ps.s.w.log ∧ ps'.hist = ps.hist := by
  cases a with
  | shared => cases ha
  | spawn => cases ha
  | updateMax => cases ha
  | sync => cases ha
  | reset => injection ha with ha; subst ha; exact absurd rfl hn.1
  | resetUnchecked => injection ha with ha; subst ha; exact absurd rfl hn.2.1
  | drop => injection ha with ha; subst ha; exact absurd rfl hn.2.2
  | deallocate j p n =>
    injection ha with ha; subst ha
    obtain ⟨ps', h1, h2, h3, h4⟩ := C69_deallocate h hl
    refine ⟨_, ps', pos, h1, by simp, h3, ?_, Nat.le_refl _, Nat.le_add_right _ _, by rw [h2], by rw [h2], h4⟩
    rw [← hroom]; unfold PS.room; rw [h2, h3]
  | allocate j l =>
    injection ha with ha; subst ha
    simp only [PAct.cost, if_true] at hc ⊢
    have hlv : l.Valid := by cases hl with | allocate _ hm => exact hm.1
    obtain ⟨k, _, hk, hpos, _⟩ := hlv.facts
    have hr := roundUp_facts pos hpos
    obtain ⟨b, ps', h1, h2, h3, h4, h5, h6, h7, h8, h9, h10⟩ := C69_room h hl (q := roundUp pos l.align) hroom (by omega) (by omega) (by omega)
    exact ⟨_, ps', _, h1, by simp, h7, h6, by omega, by omega, h8, h9, h10⟩
  | resize j p old new =>
    injection ha with ha; subst ha
    simp only [PAct.cost, if_true] at hc ⊢
    have hlv : new.Valid := by cases hl with | resize _ _ _ hm => exact hm.1
    obtain ⟨k, _, hk, hpos, _⟩ := hlv.facts
    by_cases hsh : new.size ≤ old.size ∧ new.align ≤ old.align
    · obtain ⟨ps', h1, h2, h3, h4⟩ := C69_shrink h hl hsh.1 hsh.2
      refine ⟨_, ps', pos, h1, by simp, h3, ?_, Nat.le_refl _, by omega, by rw [h2], by rw [h2], h4⟩
      rw [← hroom]; unfold PS.room; rw [h2, h3]
    · by_cases hg : new.align ≤ old.align ∧ pos = p + old.size ∧ p + new.size ≤ e
      · obtain ⟨g1, g2, g3⟩ := hg
        subst g2
        obtain ⟨ps', h1, h2, h3, h4, h5, h6⟩ := C69_grow h hl hroom (by omega) g1 g3
        exact ⟨_, ps', _, h1, by simp, h3, h2, by omega, by omega, h4, h5, h6⟩
      · have hr := roundUp_facts pos hpos
        obtain ⟨b, ps', h1, h2, h3, h4, h5, h6, h7, h8, h9, h10⟩ :=
          C69_move h hl hsh (q := roundUp pos new.align) hroom hg (by omega) (by omega) (by omega)
        exact ⟨_, ps', _, h1, by simp, h7, h6, by omega, by omega, h8, h9, h10⟩

/-- A call of a proxy that came back at once leaves it resting; what is no call of it, too. -/
theorem PAfter.resting {m K a r K'} (h : PAfter m K a r K') {i : Nat} (hv : K.live i = true) (hb : K.pbusy i = none)
    (ha : a.proxy = some i → r ≠ none) (hd : a ≠ .drop i) : K'.live i = true ∧ K'.pbusy i = none := by
  have hent : ∀ {j left c ob}, (j = i → r ≠ none) →
      (K.enter j left c ob r).live i = true ∧ (K.enter j left c ob r).pbusy i = none := by
    intro j left c ob hj
    cases r with
    | some r => exact ⟨hv, hb⟩
    | none =>
      refine ⟨hv, ?_⟩
      have : i ≠ j := fun he => hj he.symm rfl
      show put K.pbusy j _ i = none
      rw [put_ne _ _ this]; exact hb
  cases h with
  | direct => exact ⟨hv, hb⟩
  | @back t ch c ob r hb' =>
    refine ⟨hv, ?_⟩
    by_cases ht : i = t
    · subst ht; show put K.pbusy i none i = none; rw [put_same]
    · show put K.pbusy t none i = none; rw [put_ne _ _ ht]; exact hb
  | @spawn j k =>
    refine ⟨?_, hb⟩
    show put K.live j true i = true
    by_cases ht : i = j
    · subst ht; rw [put_same]
    · rw [put_ne _ _ ht]; exact hv
  | allocate => exact hent fun he => ha (by rw [he]; rfl)
  | resize => exact hent fun he => ha (by rw [he]; rfl)
  | deallocate => exact ⟨hv, hb⟩
  | reset => exact ⟨hv, hb⟩
  | resetUnchecked => exact hent fun he => ha (by rw [he]; rfl)
  | @drop j =>
    refine ⟨?_, hb⟩
    have ht : i ≠ j := fun he => hd (by rw [he])
    show put K.live j false i = true
    rw [put_ne _ _ ht]; exact hv
  | updateMax => exact ⟨hv, hb⟩
  | sync => exact ⟨hv, hb⟩

/-- C96: consider a proxy that is not executing a call, with room `[pos, e)`. In any history in which it is neither dropped nor
`reset_unchecked`, and the calls between two of its resets never cost more than `e - pos`, every call of the proxy comes back at once
and succeeds, whatever the other threads and proxies do. The proxy keeps its chunk. -/
theorem C96_warm {p0 ps ps2 : PS} {K K2 : PBook} (h : PReach p0 ps K) {i : Nat} (hv : K.live i = true) (hb : K.pbusy i = none)
    {pos e : Nat} (hroom : ps.room i = some (pos, e)) {tr} (hr : PRun ps K tr ps2 K2)
    (hn : ∀ x ∈ tr, x.1 ≠ .resetUnchecked i ∧ x.1 ≠ .drop i) (hc : pos + pworst i tr ≤ e) :
    (∀ a r, (a, r) ∈ tr → a.proxy = some i → ∃ r', r = some r' ∧ r' ≠ .err) ∧ ps2.px i = ps.px i ∧ K2.live i = true ∧
      K2.pbusy i = none ∧ ∃ pos', ps2.room i = some (pos', e) ∧ pos' ≤ pos + pspent i tr := by
  have main : PReach p0 ps2 K2 ∧ (∀ a r, (a, r) ∈ tr → a.proxy = some i → ∃ r', r = some r' ∧ r' ≠ .err) ∧ ps2.px i = ps.px i ∧
      K2.live i = true ∧ K2.pbusy i = none ∧ ∃ pos', ps2.room i = some (pos', e) ∧ pos' ≤ pos + pspent i tr := by
    have hlow : ∀ p, ps.px i = some p → p.a.root + 32 ≤ pos := by
      intro p hp
      obtain ⟨KS, cs, pend, hi⟩ := h.inv
      obtain ⟨m, hp', hV⟩ := hi.resting hv hb
      rw [PS.room_of hp' hV] at hroom
      rw [hp'] at hp
      injection hp with hp
      subst hp
      generalize cs i = csi at *
      cases csi with
      | nil => cases hroom
      | cons c t =>
        injection hroom with hroom; injection hroom with h1 h2
        subst h1
        exact (hV.ok c List.mem_cons_self).lo
    have hpxs : ∃ p, ps.px i = some p := by
      obtain ⟨KS, cs, pend, hi⟩ := h.inv
      obtain ⟨m, hp', _⟩ := hi.resting hv hb
      exact ⟨_, hp'⟩
    obtain ⟨p, hp⟩ := hpxs
    induction hr with
    | nil => exact ⟨h, by simp, rfl, hv, hb, pos, hroom, Nat.le_add_right _ _⟩
    | @snoc tr s K1 a r s' K' hr hl hs hA ih =>
      have hw : pworst i tr ≤ pworst i (tr ++ [(a, r)]) := by
        rw [pworst_snoc]; unfold PAct.round; split
        · exact Nat.le_refl _
        · exact Nat.le_max_left _ _
      obtain ⟨h1, h2, h3, h4, h5, pos', h6, h7⟩ := ih (fun x hx => hn x (List.mem_append_left _ hx)) (by omega)
      have hna := hn (a, r) (List.mem_append_right _ List.mem_cons_self)
      have h1' : PReach p0 s' K' := by obtain ⟨h0, tr0, hr0⟩ := h1; exact ⟨h0, _, hr0.snoc hl hs hA⟩
      have fin : (a.proxy = some i → ∃ r', r = some r' ∧ r' ≠ .err) → s'.px i = s.px i →
          (∃ pos', s'.room i = some (pos', e) ∧ pos' ≤ pos + pspent i (tr ++ [(a, r)])) →
          PReach p0 s' K' ∧ (∀ b q, (b, q) ∈ tr ++ [(a, r)] → b.proxy = some i → ∃ r', q = some r' ∧ r' ≠ .err) ∧
          s'.px i = ps.px i ∧ K'.live i = true ∧ K'.pbusy i = none ∧
          ∃ pos', s'.room i = some (pos', e) ∧ pos' ≤ pos + pspent i (tr ++ [(a, r)]) := by
        intro f1 f2 f3
        have f4 := hA.resting h4 h5 (fun hp => by obtain ⟨r', e1, _⟩ := f1 hp; rw [e1]; simp) hna.2
        refine ⟨h1', ?_, f2.trans h3, f4.1, f4.2, f3⟩
        intro b q hm
        rcases List.mem_append.mp hm with hm | hm
        · exact h2 b q hm
        · simp only [List.mem_singleton, Prod.mk.injEq] at hm
          obtain ⟨rfl, rfl⟩ := hm
          exact f1
      by_cases hres : a = .reset i
      · subst hres
        obtain ⟨ps', g1, g2, _, g4, _⟩ := C69_reset h1 hl (h3.trans hp)
        rw [g1] at hs
        injection hs with hs; injection hs with hs; injection hs with e1 e2
        subst e1; subst e2
        refine fin (fun _ => ⟨_, rfl, by simp⟩) (g2.trans (h3.trans hp).symm) ⟨p.a.root + 32, by rw [g4, h6]; rfl, ?_⟩
        have := hlow p hp
        omega
      · have hsp : pspent i (tr ++ [(a, r)]) = pspent i tr + a.cost i := by
          rw [pspent_snoc]; unfold PAct.round; rw [if_neg hres]
        by_cases hown : a.proxy = some i
        · have hcost : pspent i tr + a.cost i ≤ pworst i (tr ++ [(a, r)]) := by
            rw [pworst_snoc]; unfold PAct.round; rw [if_neg hres]; exact Nat.le_max_right _ _
          obtain ⟨r', ps', q, g1, g2, g3, g4, g5, g6, _⟩ := C96_at_once h1 hl hown ⟨hres, hna.1, hna.2⟩ h6 (by omega)
          rw [g1] at hs
          injection hs with hs; injection hs with hs; injection hs with e1 e2
          subst e1; subst e2
          exact fin (fun _ => ⟨_, rfl, g2⟩) (by rw [g3]) ⟨q, g4, by omega⟩
        · obtain ⟨g1, g2⟩ := h1.others h4 h5 hl hs hown
          exact fin (fun hp => absurd hp hown) g1 ⟨pos', by rw [g2, h6], by omega⟩
  exact main.2

/-- C96: after `reset`, a proxy that has a chunk can be asked for as much as the newest one holds, again and again with a `reset` in
between, and never waits for the shared allocator. -/
theorem C96_after_reset {p0 ps ps1 ps2 : PS} {K K1 K2 : PBook} (h : PReach p0 ps K) {i : Nat} (hl : PLegal K (.reset i)) {r}
    (hs : pstep ps (.reset i) = .ok (some (r, ps1))) (hA : PAfter ps.s.w.mem K (.reset i) r K1) (hcap : 0 < ps.lastCap i) {tr}
    (hr : PRun ps1 K1 tr ps2 K2) (hn : ∀ x ∈ tr, x.1 ≠ .resetUnchecked i ∧ x.1 ≠ .drop i) (hc : pworst i tr ≤ ps.lastCap i) :
    (∀ a r, (a, r) ∈ tr → a.proxy = some i → ∃ r', r = some r' ∧ r' ≠ .err) ∧ ps2.px i = ps.px i ∧ ps2.lastCap i = ps.lastCap i := by
  have hrdy : K.Ready i := by cases hl; assumption
  have h1 : PReach p0 ps1 K1 := by obtain ⟨h0, tr0, hr0⟩ := h; exact ⟨h0, _, hr0.snoc hl hs hA⟩
  have hK := hA.resting hrdy.1 hrdy.2.1 (fun _ => by cases hA; simp) (by simp)
  obtain ⟨p, hp⟩ : ∃ p, ps.px i = some p := by
    obtain ⟨KS, cs, pend, m, hi, hp, _⟩ := h.ready hrdy
    exact ⟨_, hp⟩
  obtain ⟨ps', g1, g2, _, g4, g5⟩ := C69_reset h hl hp
  rw [g1] at hs
  injection hs with hs; injection hs with hs; injection hs with e1 e2
  subst e1; subst e2
  have hcapOf : ∀ {q : PS} {a e}, q.px i = some p → q.room i = some (a, e) → q.lastCap i = e - (p.a.root + 32) := by
    intro q a e hq hrm
    unfold PS.room St.room at hrm
    rw [hq] at hrm
    simp only at hrm
    unfold PS.lastCap
    rw [hq]
    simp only
    split at hrm
    · cases hrm
    rename_i hne
    rw [if_neg hne]
    split at hrm
    · rename_i x y hx hy
      injection hrm with hrm; injection hrm with _ hrm
      subst hrm
      rw [hy]; rfl
    · cases hrm
  have hroot : 0 < p.a.root := by
    unfold PS.lastCap at hcap
    rw [hp] at hcap
    simp only at hcap
    split at hcap
    · omega
    · omega
  obtain ⟨⟨a, e⟩, hrm⟩ := Option.isSome_iff_exists.mp (g5 hroot)
  rw [hrm] at g4
  have hcap0 := hcapOf hp hrm
  obtain ⟨c1, c2, _, _, pos', c3, _⟩ := C96_warm h1 hK.1 hK.2 g4 hr hn (by omega)
  refine ⟨c1, c2.trans (g2.trans hp.symm), ?_⟩
  rw [hcapOf (c2.trans g2) c3, hcap0]

/-! ### A concrete case -/

/-- Three rounds of proxy 0, each within the 224 bytes of its chunk, while proxy 1 and threads 0 and 2 keep the shared allocator busy. -/
def pwarmActs : List PAct :=
  [.allocate 0 ⟨100, 8⟩, .spawn 1 0, .allocate 1 ⟨10, 16⟩] ++ pgoes 1 2 ++ [.shared (.call 2 (.allocate ⟨40, 8⟩)), .allocate 0 ⟨60, 16⟩] ++
  pgoes 2 1 ++ [.shared (.write 65605 (.raw 7)), .reset 0, .allocate 0 ⟨200, 8⟩,
  .shared (.call 0 (.allocate ⟨16, 8⟩))] ++ pgoes 0 4 ++ [.reset 0, .allocate 0 ⟨20, 4⟩, .resize 0 65600 ⟨20, 4⟩ ⟨150, 4⟩]

def pwarmDemo (ps : PS) (K : PBook) : Bool :=
  match pstep ps (.reset 0) with
  | .ok (some (some .unit, ps1)) =>
    match pexecAll ps1 { K with led := put K.led 0 [] } pwarmActs with
    | some (rs, _, K2) => K.readyB 0 && decide (ps.lastCap 0 = 224) &&
      (pwarmActs.zip rs).all (fun x => decide (x.1 ≠ .resetUnchecked 0) && decide (x.1 ≠ .drop 0)) &&
      decide (pworst 0 (pwarmActs.zip rs) = 207) && (K2.pbusy 1).isSome && (K2.direct.busy 2).isSome
    | none => false
  | _ => false

/-- The hypotheses of `C96_after_reset`, hence of `C96_warm`, can be met with others inside the shared allocator. -/
example : ∃ p0 ps K ps1 r K1 tr ps2 K2, PReach p0 ps K ∧ PLegal K (.reset 0) ∧ pstep ps (.reset 0) = .ok (some (r, ps1)) ∧
    PAfter ps.s.w.mem K (.reset 0) r K1 ∧ 0 < ps.lastCap 0 ∧ PRun ps1 K1 tr ps2 K2 ∧
    (∀ x ∈ tr, x.1 ≠ .resetUnchecked 0 ∧ x.1 ≠ .drop 0) ∧ pworst 0 tr ≤ ps.lastCap 0 ∧ 0 < pworst 0 tr ∧
    K2.pbusy 1 ≠ none ∧ K2.direct.busy 2 ≠ none := by
  obtain ⟨p0, ps, K, h, hf⟩ := proom_demo (f := pwarmDemo) proomActs (by decide +kernel)
  unfold pwarmDemo at hf
  split at hf
  case h_2 => cases hf
  rename_i ps1 h1
  split at hf
  case h_2 => cases hf
  rename_i rs ps2 K2 h2
  simp only [Bool.and_eq_true, decide_eq_true_eq, List.all_eq_true] at hf
  obtain ⟨⟨⟨⟨⟨a1, a2⟩, a3⟩, a4⟩, a5⟩, a6⟩ := hf
  refine ⟨p0, ps, K, ps1, _, _, _, ps2, K2, h, .reset (PBook.readyB_sound a1), h1, .reset, by omega, (pexecAll_sound h2).1, a3, by omega,
    by omega, ?_, ?_⟩
  · intro h; rw [h] at a5; cases a5
  · intro h; rw [h] at a6; cases a6

/-- The hypotheses of `C96_at_once` can be met: 124 bytes are left, the block of 100 bytes shall have 110, which may cost 117. -/
example : ∃ p0 ps K, PReach p0 ps K ∧ PLegal K (.resize 0 65600 ⟨100, 8⟩ ⟨110, 8⟩) ∧ ps.room 0 = some (65700, 65824) ∧
    65700 + (PAct.resize 0 65600 ⟨100, 8⟩ ⟨110, 8⟩).cost 0 ≤ 65824 := by
  obtain ⟨p0, ps, K, h, hf⟩ := proom_demo (f := fun ps K => K.readyB 0 && decide (ps.room 0 = some (65700, 65824)) &&
    decide (K.led 0 = [⟨65600, 100, 100, 8⟩])) proomActs (by decide +kernel)
  simp only [Bool.and_eq_true, decide_eq_true_eq] at hf
  have hb : (⟨65600, 100, 100, 8⟩ : Owned) ∈ K.led 0 := by rw [hf.2]; exact List.mem_cons_self
  exact ⟨p0, ps, K, h, .resize (PBook.readyB_sound hf.1.1) hb (Owned.fitsB_sound (by decide)) (Layout.modestB_sound (by decide)), hf.1.2,
    by decide⟩

end Blink
