import Verif.Spec.ProxyZero
import Verif.Proofs.SyncZero
import Verif.Props.Proxy
/-
  What holds at every moment while `allocate_zeroed` and `grow_zeroed` of proxies are used: the system is in a state that the other calls lead to
  as well (`PReach`), with a book in which the blocks the default methods work on belong to whoever uses the proxy.
-/
namespace Blink

/-! ### The invariant -/

/-- The blocks a default method works on. -/
def zpheld : ZPc → Option (ZJob × Option Owned) → List Owned
  | .off, _ => []
  | .alloc _, bz => (bz.bind (·.2)).toList
  | .zero j b _, bz => Owned.of b j.layout :: (bz.bind (·.2)).toList
  | .copy _ _ new b _, bz => Owned.of b new :: (bz.bind (·.2)).toList
  | .free _ _ _ _, _ => []

/-- Whoever uses a proxy and executes the recorded zeroed call is at a place in a default method; `kp` is the call of the proxy's own methods that waits, `vp` the one the
callers know about. -/
inductive ZPThr (m sn : Nat → Byte) : ZPc → Option (ZJob × Option Owned) → Option (PCall × Option Owned) → Option (PCall × Option Owned) → Prop
  | off {p} : ZPThr m sn .off none p p
  | alloc {j ob} (hj : ZJobOK m sn j ob) : ZPThr m sn (.alloc j) (some (j, ob)) (some (.allocate j.layout, none)) none
  | zero {j ob b k} (hj : ZJobOK m sn j ob) (hk : k ≤ b.len) (hz : ∀ i, i < k → m (b.addr + i) = .raw 0) :
      ZPThr m sn (.zero j b k) (some (j, ob)) none none
  | copy {p old new o b k} (hj : ZJobOK m sn (.growZeroed p old new) (some o)) (hk : k ≤ old.size) (hlen : new.size ≤ b.len)
      (hc : ∀ i, i < k → m (b.addr + i) = sn (p + i)) (hz : ∀ i, k ≤ i → i < b.len → m (b.addr + i) = .raw 0) :
      ZPThr m sn (.copy p old new b k) (some (.growZeroed p old new, some o)) none none

theorem ZPThr.frame {m m' sn pc bz kp vp} (h : ZPThr m sn pc bz kp vp) (hm : ∀ b ∈ zpheld pc bz, ∀ x, b.Has x → m' x = m x) :
    ZPThr m' sn pc bz kp vp := by
  have byte : ∀ {b : Slice} {l : Layout} {i}, Owned.of b l ∈ zpheld pc bz → i < b.len → m' (b.addr + i) = m (b.addr + i) :=
    fun hb hi => hm _ hb _ ⟨Nat.le_add_right .., Nat.add_lt_add_left hi _⟩
  cases h with
  | off => exact .off
  | alloc hj => exact .alloc (hj.frame hm)
  | zero hj hk hz =>
    exact .zero (hj.frame fun b hb => hm b (List.mem_cons_of_mem _ hb)) hk fun i hi =>
      (byte List.mem_cons_self (Nat.lt_of_lt_of_le hi hk)).trans (hz i hi)
  | @copy p old new o b k hj hk hlen hc hz =>
    have hs : old.size ≤ new.size := by cases hj; assumption
    exact .copy (hj.frame fun b hb => hm b (List.mem_cons_of_mem _ hb)) hk hlen
      (fun i hi => (byte List.mem_cons_self (by omega)).trans (hc i hi)) fun i h1 h2 => (byte List.mem_cons_self h2).trans (hz i h1 h2)

/-- The invariant. `K` is the book of the system without default methods. -/
structure ZPInv (p0 : PS) (z : ZPS) (V : ZPBook) (K : PBook) : Prop where
  base : PReach p0 z.p K
  direct : K.direct = V.k.direct
  live : K.live = V.k.live
  parts : ∀ i, (K.led i).Perm (zpheld (z.zpcs i) (V.zbusy i) ++ V.k.led i)
  thr : ∀ i, ZPThr z.p.s.w.mem (V.snap i) (z.zpcs i) (V.zbusy i) (K.pbusy i) (V.k.pbusy i)
  act : ∀ i, V.zbusy i ≠ none → V.k.live i = true ∧ V.k.direct.busy i = none

theorem PReach.led_apart {p0 ps K} (h : PReach p0 ps K) :
    (∀ b ∈ K.direct.owned, ∀ i, ∀ c ∈ K.led i, b.Apart c) ∧ (∀ i, (K.led i).Pairwise Owned.Apart) ∧
    ∀ i j, i ≠ j → ∀ b ∈ K.led i, ∀ c ∈ K.led j, b.Apart c := by
  have one : ∀ i, K.direct.owned.Pairwise Owned.Apart ∧ (K.blocks i).Pairwise Owned.Apart ∧
      ∀ b ∈ K.direct.owned, ∀ c ∈ K.blocks i, b.Apart c := by
    intro i
    have := C26_no_overlap h (ids := [i]) (by simp)
    rw [List.pairwise_append] at this
    simpa using this
  refine ⟨fun b hb i c hc => (one i).2.2 b hb c (List.mem_append_right _ hc), fun i => (List.pairwise_append.mp (one i).2.1).2.1, fun i j hij b hb c hc => ?_⟩
  have := C26_no_overlap h (ids := [i, j]) (by simp [hij])
  rw [List.pairwise_append] at this
  simp only [List.flatMap_cons, List.flatMap_nil, List.append_nil] at this
  exact (List.pairwise_append.mp this.2.1).2.2 b (List.mem_append_right _ hb) c (List.mem_append_right _ hc)

theorem ZPInv.held_mem {p0 z V K} (h : ZPInv p0 z V K) {i b} (hb : b ∈ zpheld (z.zpcs i) (V.zbusy i)) : b ∈ K.led i :=
  (h.parts i).mem_iff.mpr (List.mem_append_left _ hb)

theorem ZPInv.led_mem {p0 z V K} (h : ZPInv p0 z V K) {i b} (hb : b ∈ V.k.led i) : b ∈ K.led i :=
  (h.parts i).mem_iff.mpr (List.mem_append_right _ hb)

/-- The blocks of user `i`, held by a default method or not, are apart. -/
theorem ZPInv.own {p0 z V K} (h : ZPInv p0 z V K) (i : Nat) : (zpheld (z.zpcs i) (V.zbusy i) ++ V.k.led i).Pairwise Owned.Apart :=
  apart_perm (h.parts i) (h.base.led_apart.2.1 i)

theorem ZPInv.apart {p0 z V K} (h : ZPInv p0 z V K) {i b} (hb : b ∈ zpheld (z.zpcs i) (V.zbusy i)) :
    (∀ c ∈ V.k.direct.owned, c.Apart b) ∧ (∀ u, ∀ c ∈ V.k.led u, c.Apart b) ∧
    ∀ u, u ≠ i → ∀ c ∈ zpheld (z.zpcs u) (V.zbusy u), c.Apart b := by
  obtain ⟨h1, _, h3⟩ := h.base.led_apart
  refine ⟨fun c hc => h1 c (h.direct ▸ hc) i b (h.held_mem hb), fun u c hc => ?_, fun u hu c hc => h3 u i hu c (h.held_mem hc) b (h.held_mem hb)⟩
  by_cases hu : u = i
  · subst hu
    exact ((List.pairwise_append.mp (h.own u)).2.2 b hb c hc).symm
  · exact h3 u i hu c (h.led_mem hc) b (h.held_mem hb)

theorem ZPInv.idle {p0 z V K} (h : ZPInv p0 z V K) {i} (hb : V.zbusy i = none) : z.zpcs i = .off ∧ K.pbusy i = V.k.pbusy i ∧ (K.led i).Perm (V.k.led i) := by
  have ht := h.thr i
  have hp := h.parts i
  rw [hb] at ht hp
  generalize hpc : z.zpcs i = pc at ht hp
  generalize hkp : K.pbusy i = kp at ht
  generalize hvp : V.k.pbusy i = vp at ht
  cases ht
  exact ⟨rfl, rfl, hp⟩

theorem ZPInv.off {p0 z V K} (h : ZPInv p0 z V K) {i} (hz : z.zpcs i = .off) : V.zbusy i = none := by
  have ht := h.thr i
  rw [hz] at ht
  generalize V.zbusy i = bz at ht
  generalize hkp : K.pbusy i = kp at ht
  generalize hvp : V.k.pbusy i = vp at ht
  cases ht
  rfl

theorem ZPInv.held_none {p0 z V K} (h : ZPInv p0 z V K) {i} (hb : V.zbusy i = none) : zpheld (z.zpcs i) (V.zbusy i) = [] := by
  rw [(h.idle hb).1]; rfl

theorem ZPInv.hidden {p0 z V K} (h : ZPInv p0 z V K) {i} (hb : V.zbusy i ≠ none) : V.k.pbusy i = none := by
  have ht := h.thr i
  generalize V.zbusy i = bz at ht hb
  generalize hpc : z.zpcs i = pc at ht
  generalize hkp : K.pbusy i = kp at ht
  generalize hvp : V.k.pbusy i = vp at ht
  cases ht with
  | off => exact absurd rfl hb
  | _ => rfl

theorem PReach.snoc {p0 ps K a r ps' K'} (h : PReach p0 ps K) (hl : PLegal K a) (hs : pstep ps a = .ok (some (r, ps')))
    (ha : PAfter ps.s.w.mem K a r K') : PReach p0 ps' K' := by
  obtain ⟨h0, tr, hr⟩ := h
  exact ⟨h0, _, hr.snoc hl hs ha⟩

/-- A step changes no byte of a block obtained through a proxy, unless it stores there, or is a call of that proxy. -/
theorem PReach.keeps {p0 ps K} (h : PReach p0 ps K) {a} (hl : PLegal K a) {r ps'} (hs : pstep ps a = .ok (some (r, ps'))) {i b}
    (hb : b ∈ K.led i) {x} (hx : b.Has x) (hw : ∀ v, a ≠ .shared (.write x v)) (hr : a ≠ .reset i ∧ a ≠ .resetUnchecked i ∧ a ≠ .drop i) :
    ps'.s.w.mem x = ps.s.w.mem x :=
  C26_frame h hl hs hx hw (.inr ⟨i, List.mem_append_right _ hb, hr⟩)

theorem PReach.access {p0 ps K} (h : PReach p0 ps K) {i b} (hb : b ∈ K.led i) {x : Nat} (hx : b.Has x) : ps.s.w.accessible x 1 = true := by
  obtain ⟨_, _, _, B, _, hB, h1, h2⟩ := C26_memory h (.inr ⟨i, List.mem_append_right _ hb⟩)
  exact accessible_of_has hB h1 h2 hx

/-- Only user `i` moves; the others keep what they have, and what is in it. -/
theorem ZPInv.move {p0 z V K} (h : ZPInv p0 z V K) (i : Nat) {z' : ZPS} {V' : ZPBook} {K' : PBook} (hb : PReach p0 z'.p K')
    (hz : ∀ u, u ≠ i → z'.zpcs u = z.zpcs u) (hd : K'.direct = K.direct ∧ V'.k.direct = V.k.direct)
    (hlv : K'.live = K.live ∧ V'.k.live = V.k.live)
    (hK : ∀ u, u ≠ i → K'.pbusy u = K.pbusy u ∧ K'.led u = K.led u)
    (hV : ∀ u, u ≠ i → V'.k.pbusy u = V.k.pbusy u ∧ V'.k.led u = V.k.led u ∧ V'.zbusy u = V.zbusy u ∧ V'.snap u = V.snap u)
    (hm : ∀ u, u ≠ i → ∀ b ∈ zpheld (z.zpcs u) (V.zbusy u), ∀ x, b.Has x → z'.p.s.w.mem x = z.p.s.w.mem x)
    (hp : (K'.led i).Perm (zpheld (z'.zpcs i) (V'.zbusy i) ++ V'.k.led i))
    (ht : ZPThr z'.p.s.w.mem (V'.snap i) (z'.zpcs i) (V'.zbusy i) (K'.pbusy i) (V'.k.pbusy i))
    (ha : V'.zbusy i ≠ none → V'.k.live i = true ∧ V'.k.direct.busy i = none) : ZPInv p0 z' V' K' := by
  refine ⟨hb, by rw [hd.1, hd.2, h.direct], by rw [hlv.1, hlv.2, h.live], fun u => ?_, fun u => ?_, fun u hu => ?_⟩
  · by_cases he : u = i
    · subst he; exact hp
    · rw [(hK u he).2, hz u he, (hV u he).2.1, (hV u he).2.2.1]; exact h.parts u
  · by_cases he : u = i
    · subst he; exact ht
    · rw [(hK u he).1, hz u he, (hV u he).1, (hV u he).2.2.1, (hV u he).2.2.2]
      exact (h.thr u).frame (hm u he)
  · by_cases he : u = i
    · subst he; exact ha hu
    · rw [(hV u he).2.2.1] at hu
      rw [hd.2, hlv.2]; exact h.act u hu

/-- What the callers may do, they may do in the book of the system without default methods. -/
theorem ZPInv.legal {p0 z V K} (h : ZPInv p0 z V K) {a} (hl : PLegal V.k a) (hp : ∀ i, a.proxy = some i → V.zbusy i = none)
    (hc : ∀ t c, a = .shared (.call t c) → V.zbusy t = none) : PLegal K a := by
  have ready : ∀ {i}, V.zbusy i = none → V.k.Ready i → K.Ready i := by
    intro i hz hr
    exact ⟨by rw [h.live]; exact hr.1, by rw [(h.idle hz).2.1]; exact hr.2.1, by rw [h.direct]; exact hr.2.2⟩
  cases hl with
  | @call t c hs hpb => exact .call (h.direct ▸ hs) (by rw [(h.idle (hc t c rfl)).2.1]; exact hpb)
  | go => exact .go
  | write hs => exact .write (h.direct ▸ hs)
  | pwrite hb hx => exact .pwrite (h.led_mem hb) hx
  | sreset ha hs hn => exact .sreset ha (h.direct ▸ hs) (by rw [h.live]; exact hn)
  | spawn hl => exact .spawn (by rw [h.live]; exact hl)
  | allocate hr hl => exact .allocate (ready (hp _ rfl) hr) hl
  | resize hr hb hf hl => exact .resize (ready (hp _ rfl) hr) (h.led_mem hb) hf hl
  | deallocate hr hb hf => exact .deallocate (ready (hp _ rfl) hr) (h.led_mem hb) hf
  | reset hr => exact .reset (ready (hp _ rfl) hr)
  | resetUnchecked hr => exact .resetUnchecked (ready (hp _ rfl) hr)
  | drop hr => exact .drop (ready (hp _ rfl) hr)
  | updateMax hv => exact .updateMax hv
  | sync => exact .sync

/-- A plain call, or a step of one, or a store. -/
theorem ZPInv.follow {p0 z V K} (h : ZPInv p0 z V K) {a} (hl : PLegal V.k a) (hp : ∀ i, a.proxy = some i → V.zbusy i = none)
    (hc : ∀ t c, a = .shared (.call t c) → V.zbusy t = none) {r p'} (hs : pstep z.p a = .ok (some (r, p'))) {k' K' : PBook}
    (haK : PAfter z.p.s.w.mem K a r K') (hd : K'.direct = k'.direct) (hlv : K'.live = k'.live)
    (hact : ∀ u, V.zbusy u ≠ none → k'.live u = true ∧ k'.direct.busy u = none)
    (hu : ∀ u, (K'.pbusy u = K.pbusy u ∧ k'.pbusy u = V.k.pbusy u ∧ K'.led u = K.led u ∧ k'.led u = V.k.led u) ∨
      (V.zbusy u = none ∧ K'.pbusy u = k'.pbusy u ∧ (K'.led u).Perm (k'.led u))) : ZPInv p0 { z with p := p' } { V with k := k' } K' := by
  have hlK := h.legal hl hp hc
  refine ⟨h.base.snoc hlK hs haK, hd, hlv, fun u => ?_, fun u => ?_, hact⟩
  · rcases hu u with ⟨_, _, e3, e4⟩ | ⟨e1, _, e3⟩
    · dsimp only; rw [e3, e4]; exact h.parts u
    · dsimp only; rw [(h.idle e1).1, e1]; exact e3
  · rcases hu u with ⟨e1, e2, _, _⟩ | ⟨e1, e2, _⟩
    · dsimp only; rw [e1, e2]
      refine (h.thr u).frame fun b hb x hx => ?_
      by_cases hz : V.zbusy u = none
      · rw [h.held_none hz] at hb; cases hb
      · refine h.base.keeps hlK hs (h.held_mem hb) hx ?_ ⟨?_, ?_, ?_⟩
        · rintro v rfl
          cases hl with
          | write hs' => cases hs' with | write ho hx' => exact (h.apart hb).1 _ ho x ⟨hx', hx⟩
          | pwrite hb' hx' => exact (h.apart hb).2.1 _ _ hb' x ⟨hx', hx⟩
          | sreset ha => rcases ha with ha | ha | ha <;> cases ha
        all_goals (rintro rfl; exact hz (hp u rfl))
    · dsimp only; rw [(h.idle e1).1, e1, e2]; exact .off

theorem SAfter.idle {m K a r D} (h : SAfter m K a r D) {u} (hu : K.busy u = none) (hc : ∀ c, a ≠ .call u c) : D.busy u = none := by
  have call : ∀ {t : Nat} {c x}, a = .call t c → put K.busy t x u = none := by
    intro t c x ha
    have hne : u ≠ t := fun he => hc c (he ▸ ha)
    rw [put_ne _ _ hne]; exact hu
  cases h with
  | allocate => exact call rfl
  | resize => exact call rfl
  | deallocate => exact call rfl
  | @ret t ch c ob r hb =>
    by_cases he : u = t
    · subst he; exact put_same _ _ _
    · exact (put_ne _ _ he).trans hu
  | _ => exact hu

/-- The plain part of the system moves as it did without zeroed calls. -/
theorem ZPInv.plain {p0 z V K} (h : ZPInv p0 z V K) {a} (hl : PLegal V.k a) (hp : ∀ i, a.proxy = some i → V.zbusy i = none)
    (hc : ∀ t c, a = .shared (.call t c) → V.zbusy t = none) {r p'} (hs : pstep z.p a = .ok (some (r, p'))) {k'}
    (ha : PAfter z.p.s.w.mem V.k a r k') (hz : ∀ t ch, a = .shared (.go t ch) → V.zbusy t = none) :
    ∃ K', ZPInv p0 { z with p := p' } { V with k := k' } K' := by
  have actOf : ∀ {L : Nat → Bool}, (∀ u, V.zbusy u ≠ none → L u = V.k.live u) → ∀ u, V.zbusy u ≠ none → L u = true ∧ V.k.direct.busy u = none :=
    fun hL u hu => ⟨by rw [hL u hu]; exact (h.act u hu).1, (h.act u hu).2⟩
  have at_ : ∀ {i : Nat} {A B : List Owned} {pK pV : Nat → Option (PCall × Option Owned)}, V.zbusy i = none → A.Perm B →
      (∀ u, u ≠ i → pK u = K.pbusy u ∧ pV u = V.k.pbusy u) → pK i = pV i →
      ∀ u, (pK u = K.pbusy u ∧ pV u = V.k.pbusy u ∧ put K.led i A u = K.led u ∧ put V.k.led i B u = V.k.led u) ∨
      (V.zbusy u = none ∧ pK u = pV u ∧ (put K.led i A u).Perm (put V.k.led i B u)) := by
    intro i A B pK pV hzi hAB h1 h2 u
    by_cases he : u = i
    · subst he
      right; rw [put_same, put_same]; exact ⟨hzi, h2, hAB⟩
    · left; rw [put_ne _ _ he, put_ne _ _ he]; exact ⟨(h1 u he).1, (h1 u he).2, rfl, rfl⟩
  have enter : ∀ {i : Nat} {A B : List Owned} {c : PCall} {ob : Option Owned}, V.zbusy i = none → A.Perm B →
      PAfter z.p.s.w.mem K a r (K.enter i A c ob r) → ∃ K', ZPInv p0 { z with p := p' } { V with k := V.k.enter i B c ob r } K' := by
    intro i A B c ob hzi hAB haK
    cases r with
    | none =>
      refine ⟨_, h.follow hl hp hc hs haK h.direct h.live (actOf fun _ _ => rfl) (at_ hzi hAB ?_ ?_)⟩
      · exact fun u he => ⟨put_ne _ _ he, put_ne _ _ he⟩
      · exact (put_same _ _ _).trans (put_same _ _ _).symm
    | some v =>
      exact ⟨_, h.follow hl hp hc hs haK h.direct h.live (actOf fun _ _ => rfl)
        (at_ hzi (hAB.append_left _) (fun u he => ⟨rfl, rfl⟩) (h.idle hzi).2.1)⟩
  cases ha with
  | @direct a' r D h1 hr =>
    refine ⟨{ K with direct := D }, h.follow hl hp hc hs (.direct (h.direct ▸ h1) ?_) rfl h.live ?_ fun u => .inl ⟨rfl, rfl, rfl, rfl⟩⟩
    · rcases hr with hr | hr
      · exact .inl hr
      · exact .inr fun t ch he => by rw [(h.idle (hz t ch (by rw [he]))).2.1]; exact hr t ch he
    · exact fun u hu => ⟨(h.act u hu).1, h1.idle (h.act u hu).2 fun c he => hu (hc u c (by rw [he]))⟩
  | @back t ch c ob v hb =>
    have hzt := hz t ch rfl
    exact ⟨_, h.follow hl hp hc hs (.back (by rw [(h.idle hzt).2.1]; exact hb)) h.direct h.live (actOf fun _ _ => rfl)
      (at_ hzt ((h.idle hzt).2.2.append_left _) (fun u he => ⟨put_ne _ _ he, put_ne _ _ he⟩) ((put_same _ _ _).trans (put_same _ _ _).symm))⟩
  | @spawn i k =>
    refine ⟨_, h.follow hl hp hc hs .spawn h.direct (by dsimp only; rw [h.live]) (actOf fun u hu => ?_) fun u => .inl ⟨rfl, rfl, rfl, rfl⟩⟩
    have hne : u ≠ i := fun he => by
      subst he
      cases hl with | spawn hl => rw [(h.act u hu).1] at hl; cases hl
    exact put_ne _ _ hne
  | @allocate i l r => exact enter (hp i rfl) (h.idle (hp i rfl)).2.2 .allocate
  | @resize i b p old new r hb hf => exact enter (hp i rfl) ((h.idle (hp i rfl)).2.2.erase b) (.resize (h.led_mem hb) hf)
  | @deallocate i b p n hb hf =>
    have hzi := hp i rfl
    exact ⟨_, h.follow hl hp hc hs (.deallocate (h.led_mem hb) hf) h.direct h.live (actOf fun _ _ => rfl)
      (at_ hzi ((h.idle hzi).2.2.erase b) (fun u he => ⟨rfl, rfl⟩) (h.idle hzi).2.1)⟩
  | @reset i =>
    have hzi := hp i rfl
    exact ⟨_, h.follow hl hp hc hs .reset h.direct h.live (actOf fun _ _ => rfl)
      (at_ hzi (.refl _) (fun u he => ⟨rfl, rfl⟩) (h.idle hzi).2.1)⟩
  | @resetUnchecked i r => exact enter (hp i rfl) (.refl _) .resetUnchecked
  | @drop i =>
    have hzi := hp i rfl
    refine ⟨_, h.follow hl hp hc hs .drop h.direct (by dsimp only; rw [h.live]) (actOf fun u hu => ?_)
      (at_ hzi (.refl _) (fun u he => ⟨rfl, rfl⟩) (h.idle hzi).2.1)⟩
    exact put_ne _ _ fun he => by subst he; exact hu hzi
  | updateMax => exact ⟨K, h.follow hl hp hc hs .updateMax h.direct h.live (actOf fun _ _ => rfl) fun u => .inl ⟨rfl, rfl, rfl, rfl⟩⟩
  | sync => exact ⟨K, h.follow hl hp hc hs .sync h.direct h.live (actOf fun _ _ => rfl) fun u => .inl ⟨rfl, rfl, rfl, rfl⟩⟩

theorem ZPS.setZ_same (z : ZPS) (i : Nat) (pc : ZPc) : (z.setZ i pc).zpcs i = pc := by simp [ZPS.setZ]
theorem ZPS.setZ_ne (z : ZPS) (pc : ZPc) {i u : Nat} (h : u ≠ i) : (z.setZ i pc).zpcs u = z.zpcs u := by simp [ZPS.setZ, h]

/-- Somebody outside all calls makes no step in one. -/
theorem PReach.still {p0 ps K} (h : PReach p0 ps K) {i ch} (hp : K.pbusy i = none) (hd : K.direct.busy i = none) :
    pstep ps (.shared (.go i ch)) = .ok none := by
  obtain ⟨KS, cs, pend, hi⟩ := h.inv
  have hx := hi.px i
  rw [hp, hd] at hx
  have hk : KS.busy i = none := by
    generalize hkb : KS.busy i = kb at hx
    generalize ps.px i = px at hx
    generalize K.live i = lv at hx
    generalize K.led i = ld at hx
    generalize cs i = c1 at hx
    generalize pend i = p1 at hx
    cases hx <;> rfl
  have hg : sstep ps.s (.go i ch) = .ok none := by
    simp only [sstep, goStep, hi.reach.busy_none hk]
    rfl
  simp only [pstep, hg]
  rfl

/-- What a waiting call of the proxy's own `allocate` is, after a step with that response. -/
def zpwait (j : ZJob) : Option Resp → Option (PCall × Option Owned)
  | none => some (.allocate j.layout, none)
  | some _ => none

/-- What the response brings. -/
def zpnew (j : ZJob) : Option Resp → List Owned
  | none => []
  | some v => pgets (.allocate j.layout) none v

/-- The default method gets on with what `self.allocate` has led to. -/
theorem ZPInv.got {p0 z V K} (h : ZPInv p0 z V K) {i j ob a r p'} {left : List Owned} (hlK : PLegal K a)
    (hs : pstep z.p a = .ok (some (r, p'))) (hpx : ∀ u, a.proxy = some u → u = i) (hnr : a ≠ .reset i ∧ a ≠ .resetUnchecked i ∧ a ≠ .drop i)
    (hnw : ∀ x v, a ≠ .shared (.write x v)) {K'} (haK : PAfter z.p.s.w.mem K a r K') (hd : K'.direct = K.direct) (hlv : K'.live = K.live)
    (hKu : ∀ u, u ≠ i → K'.pbusy u = K.pbusy u ∧ K'.led u = K.led u)
    (hKi : K'.pbusy i = zpwait j r ∧ K'.led i = zpnew j r ++ K.led i)
    (hL : (K.led i).Perm (ob.toList ++ left)) {sn : Nat → Byte} (hj : ZJobOK z.p.s.w.mem sn j ob)
    (hact : V.k.live i = true ∧ V.k.direct.busy i = none) {r' z'} (hg : z.got i j p' r = (r', z')) {V' : ZPBook}
    (hVd : V'.k.direct = V.k.direct) (hVl : V'.k.live = V.k.live)
    (hVu : ∀ u, u ≠ i → V'.k.pbusy u = V.k.pbusy u ∧ V'.k.led u = V.k.led u ∧ V'.zbusy u = V.zbusy u ∧ V'.snap u = V.snap u)
    (hVp : V'.k.pbusy i = none)
    (hVi : (r' = none → V'.zbusy i = some (j, ob) ∧ V'.snap i = sn ∧ V'.k.led i = left) ∧
      (∀ v, r' = some v → V'.zbusy i = none ∧ V'.k.led i = zgets (.zeroed j) ob v ++ left)) : ZPInv p0 z' V' K' := by
  have hb := h.base.snoc hlK hs haK
  have keep : ∀ u, ∀ b ∈ K.led u, (u = i ∨ V.zbusy u ≠ none) → ∀ x, b.Has x → p'.s.w.mem x = z.p.s.w.mem x := by
    intro u b hb hu x hx
    refine h.base.keeps hlK hs hb hx (hnw x) ?_
    by_cases he : u = i
    · subst he; exact hnr
    · refine ⟨?_, ?_, ?_⟩ <;> (rintro rfl; exact he (hpx u rfl))
  have others : ∀ u, u ≠ i → ∀ b ∈ zpheld (z.zpcs u) (V.zbusy u), ∀ x, b.Has x → p'.s.w.mem x = z.p.s.w.mem x := by
    intro u hu b hb x hx
    refine keep u b (h.held_mem hb) (.inr fun hn => ?_) x hx
    rw [h.held_none hn] at hb; cases hb
  have hj' : ZJobOK p'.s.w.mem sn j ob :=
    hj.frame fun b hb x hx => keep i b (hL.mem_iff.mpr (List.mem_append_left _ hb)) (.inl rfl) x hx
  have mv : ∀ {pc}, z' = { z with p := p' }.setZ i pc → (K'.led i).Perm (zpheld pc (V'.zbusy i) ++ V'.k.led i) →
      ZPThr p'.s.w.mem (V'.snap i) pc (V'.zbusy i) (K'.pbusy i) (V'.k.pbusy i) → ZPInv p0 z' V' K' := by
    rintro pc rfl hp ht
    refine h.move i (z' := { z with p := p' }.setZ i pc) hb (fun u hu => ZPS.setZ_ne _ _ hu) ⟨hd, hVd⟩ ⟨hlv, hVl⟩ hKu hVu others ?_ ?_
      fun _ => by rw [hVl, hVd]; exact hact
    · rw [ZPS.setZ_same]; exact hp
    · rw [ZPS.setZ_same]; exact ht
  have error : ∀ {v}, (∀ b, v ≠ .block b) → r = some v → r' = some .err → z' = { z with p := p' }.setZ i .off → ZPInv p0 z' V' K' := by
    intro v hv hr hr' hz'
    subst hr
    obtain ⟨e1, e2⟩ := hVi.2 _ hr'
    have e3 : zgets (.zeroed j) ob .err = ob.toList := by cases hj <;> rfl
    have e4 : pgets (.allocate j.layout) none v = [] := by
      cases v with
      | block b => exact absurd rfl (hv b)
      | _ => rfl
    refine mv hz' ?_ ?_
    · rw [hKi.2, e2, e3]; simp only [zpnew]; rw [e4]; exact hL
    · rw [e1, hKi.1, hVp]; exact .off
  rcases r with _ | v
  · simp only [ZPS.got] at hg
    injection hg with h1 h2
    subst h1
    obtain ⟨e1, e2, e3⟩ := hVi.1 rfl
    refine mv h2.symm ?_ ?_
    · rw [hKi.2, e1, e3]; exact hL
    · rw [e1, e2, hKi.1, hVp]; exact .alloc hj'
  · cases v with
    | block b =>
      simp only [ZPS.got] at hg
      injection hg with h1 h2
      subst h1
      obtain ⟨e1, e2, e3⟩ := hVi.1 rfl
      refine mv h2.symm ?_ ?_
      · rw [hKi.2, e1, e3]
        exact List.Perm.cons _ hL
      · rw [e1, e2, hKi.1, hVp]; exact .zero hj' (Nat.zero_le _) nofun
    | err =>
      simp only [ZPS.got] at hg
      injection hg with h1 h2
      exact error (fun _ he => by cases he) rfl h1.symm h2.symm
    | unit =>
      simp only [ZPS.got] at hg
      injection hg with h1 h2
      exact error (fun _ he => by cases he) rfl h1.symm h2.symm

/-- The cases of a plain step. -/
theorem zpstep_base {z a r z'} (hs : zpstep z (.base a) = .ok (some (r, z'))) :
    z.may a = true ∧ ∃ r0 p', pstep z.p a = .ok (some (r0, p')) ∧
      ((∃ i ch j, a = .shared (.go i ch) ∧ z.zpcs i = .alloc j ∧ z.got i j p' r0 = (r, z')) ∨
       ((∀ i ch, a = .shared (.go i ch) → ∀ j, z.zpcs i ≠ .alloc j) ∧ r0 = r ∧ z' = { z with p := p' })) := by
  simp only [zpstep] at hs
  split at hs
  case isFalse => cases hs
  rename_i hm
  refine ⟨hm, ?_⟩
  cases hp : pstep z.p a with
  | error e => rw [hp] at hs; cases hs
  | ok q =>
    rw [hp] at hs
    rcases q with _ | ⟨r0, p'⟩
    · cases hs
    · refine ⟨r0, p', rfl, ?_⟩
      replace hs : (match z.inside a with
        | some (i, j) => (pure (some (z.got i j p' r0)) : ZPRes)
        | none => pure (some (r0, { z with p := p' }))) = .ok (some (r, z')) := hs
      cases hin : z.inside a with
      | some q =>
        obtain ⟨i, j⟩ := q
        rw [hin] at hs
        left
        unfold ZPS.inside at hin
        split at hin
        · rename_i t ch
          split at hin
          · rename_i j' hpc
            injection hin with hin
            injection hin with h1 h2
            subst h1; subst h2
            refine ⟨_, ch, _, rfl, hpc, ?_⟩
            injection hs with hs
            injection hs
          · cases hin
        · cases hin
      | none =>
        rw [hin] at hs
        right
        refine ⟨?_, ?_⟩
        · rintro i ch rfl j hpc
          simp only [ZPS.inside, hpc] at hin
          cases hin
        · injection hs with hs
          injection hs with hs
          injection hs with h1 h2
          exact ⟨h1, h2.symm⟩

theorem zpstep_zcall {z i j r z'} (hs : zpstep z (.zcall i j) = .ok (some (r, z'))) :
    z.zpcs i = .off ∧ ∃ r0 p', pstep z.p (.allocate i j.layout) = .ok (some (r0, p')) ∧ z.got i j p' r0 = (r, z') := by
  simp only [zpstep] at hs
  split at hs
  case isFalse => cases hs
  rename_i hz
  refine ⟨hz, ?_⟩
  have key : ∀ {q : Except Fault (Unit × World)}, (do
      let ((), _) ← q
      match ← pstep z.p (.allocate i j.layout) with
      | none => pure none
      | some (r, p) => pure (some (z.got i j p r)) : ZPRes) = .ok (some (r, z')) →
      ∃ r0 p', pstep z.p (.allocate i j.layout) = .ok (some (r0, p')) ∧ z.got i j p' r0 = (r, z') := by
    intro q hq
    cases q with
    | error e => cases hq
    | ok q =>
      cases hp : pstep z.p (.allocate i j.layout) with
      | error e => rw [hp] at hq; cases hq
      | ok q =>
        rw [hp] at hq
        rcases q with _ | ⟨r0, p'⟩
        · cases hq
        · refine ⟨r0, p', rfl, ?_⟩
          replace hq : (pure (some (z.got i j p' r0)) : ZPRes) = .ok (some (r, z')) := hq
          injection hq with hq
          injection hq
  exact key hs

theorem ZJobOK.old {m sn j o} (h : ZJobOK m sn j (some o)) : ∃ p old new, j = .growZeroed p old new ∧ o.Fits p old ∧ old.size ≤ new.size ∧ ∀ x, o.Has x → m x = sn x := by
  cases h with
  | grow hf _ hs same => exact ⟨_, _, _, rfl, hf, hs, same⟩

/-- The cases of a step in a default method. -/
inductive ZPGo (z : ZPS) (i : Nat) : Option Resp → ZPS → Prop
  | zero {j b k p'} (hpc : z.zpcs i = .zero j b k) (hk : k < b.len) (hs : pstep z.p (.shared (.write (b.addr + k) (.raw 0))) = .ok (some (none, p'))) :
      ZPGo z i none ({ z with p := p' }.setZ i (.zero j b (k + 1)))
  | zeroed {l b k} (hpc : z.zpcs i = .zero (.zeroed l) b k) (hk : b.len ≤ k) : ZPGo z i (some (.block b)) (z.setZ i .off)
  | toCopy {p old new b k} (hpc : z.zpcs i = .zero (.growZeroed p old new) b k) (hk : b.len ≤ k) : ZPGo z i none (z.setZ i (.copy p old new b 0))
  | copy {p old new b k p'} (hpc : z.zpcs i = .copy p old new b k) (hk : k < old.size)
      (hs : pstep z.p (.shared (.write (b.addr + k) (z.p.s.w.mem (p + k)))) = .ok (some (none, p'))) :
      ZPGo z i none ({ z with p := p' }.setZ i (.copy p old new b (k + 1)))
  | free {p old new b k r p'} (hpc : z.zpcs i = .copy p old new b k) (hk : old.size ≤ k) (hs : pstep z.p (.deallocate i p old.size) = .ok (some (r, p'))) :
      ZPGo z i (some (.block b)) ({ z with p := p' }.setZ i .off)

theorem pstep_write (p : PS) (x : Nat) (v : Byte) : pstep p (.shared (.write x v)) =
    .ok (some (none, { p with s := { p.s with w := { p.s.w with mem := setBytes p.s.w.mem x 1 (fun _ => v) } } })) := rfl

theorem zpgo_cases {z i r z'} (hs : zpstep z (.zgo i) = .ok (some (r, z'))) : ZPGo z i r z' := by
  simp only [zpstep, zpgoStep] at hs
  split at hs
  · rename_i j b k hpc
    split at hs
    · rename_i hk
      simp only [zeroByte] at hs
      split at hs
      case isFalse => cases hs
      cases hs
      exact .zero hpc hk (pstep_write ..)
    · rename_i hk
      split at hs
      · cases hs
        exact .zeroed hpc (by omega)
      · simp only [require] at hs
        split at hs
        case isFalse => cases hs
        cases hs
        exact .toCopy hpc (by omega)
  · rename_i p old new b k hpc
    split at hs
    · rename_i hk
      simp only [copyByte] at hs
      split at hs
      case isFalse => cases hs
      cases hs
      exact .copy hpc hk (pstep_write ..)
    · rename_i hk
      cases hp : pstep z.p (.deallocate i p old.size) with
      | error e => rw [hp] at hs; cases hs
      | ok q =>
        rw [hp] at hs
        rcases q with _ | ⟨r0, p'⟩
        · cases hs
        · cases hs
          exact .free hpc (by omega) hp
  · cases hs

theorem pstep_dealloc {p i q n r p'} (hs : pstep p (.deallocate i q n) = .ok (some (r, p'))) : r = some .unit := by
  simp only [pstep] at hs
  split at hs
  · rename_i a _
    cases hd : a.deallocate q n p.s.w with
    | error e => rw [hd] at hs; cases hs
    | ok x =>
      rw [hd] at hs
      simp only [PS.answer] at hs
      cases hs
      rfl
  · cases hs

end Blink
