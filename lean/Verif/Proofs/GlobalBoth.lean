import Verif.Proofs.GlobalRel
import Verif.Proofs.GlobalSyncRun
import Verif.Props.GlobalProxy
/-
  A global allocator used in both modes while proxies exist: what goes through the `SyncBlinkAlloc` does not notice the direct calls.
-/
namespace Blink

/-! ### A history depends only on the answers given in it -/

theorem GPRun.ora {x0 K0 tr x K} (h : GPRun x0 K0 tr x K) : x.g.s.w.oracle = x0.g.s.w.oracle ∧ x0.g.s.w.calls ≤ x.g.s.w.calls ∧
    ∀ o, Agree x0.g.s.w x.g.s.w.calls o → GPRun (x0.ora o) K0 tr (x.ora o) K := by
  induction h with
  | nil => exact ⟨rfl, Nat.le_refl _, fun _ _ => .nil⟩
  | snoc _ hl hs ha ih =>
    obtain ⟨h1, h2, h3⟩ := ih
    obtain ⟨w', hw, g1, g2, _⟩ := gpstep_ora (o := fun _ => none) _ _ hs
    cases hw _ rfl
    refine ⟨g1.trans h1, Nat.le_trans h2 g2, fun o ho => ?_⟩
    obtain ⟨w', hw, _, _, g3⟩ := gpstep_ora (o := o) _ _ hs
    cases hw _ rfl
    exact (h3 o (ho.weaken rfl g2)).snoc hl (g3 (ho.weaken h1.symm (Nat.le_refl _))) ha

/-! ### Steps that are no direct calls -/

/-- The same state in the world `v`, without direct calls, threads being at `f`. -/
def GPS.veil (x : GPS) (v : World) (f : Nat → GPc) : GPS := { x with g := { x.g with s := { x.g.s with w := v }, dlog := [], pcs := f } }

/-- The same outcome, up to what was done directly. -/
def SameGP (O : List BaseBlk) (m0 : Nat → Byte) (x : GPS) (f : Nat → GPc) (p q : Option (Option GPResp × GPS)) : Prop :=
  (p = none ∧ q = none) ∨ ∃ r x' v' f', p = some (r, x') ∧ q = some (r, x'.veil v' f') ∧ Priv O m0 x'.g.s.w v' ∧ x'.g.dlog = x.g.dlog ∧
    ((f = x.g.pcs ∧ f' = x'.g.pcs) ∨ (f' = f ∧ x'.g.pcs = x.g.pcs))

theorem gpstep_rel_glob {O m0 v} {x : GPS} {f} (h : Priv O m0 x.g.s.w v) {a : GAct} (hf : f = x.g.pcs ∨ ∃ y b, a = .write y b)
    (hw : ∀ y b, a = .write y b → v.accessible y 1 = true) (hd : ∀ t ch c, a = .go t ch → x.g.pcs t ≠ .direct c) :
    RelE O (SameGP O m0 x f) (gpstep x (.glob a)) (gpstep (x.veil v f) (.glob a)) := by
  rcases hf with rfl | ⟨y, b, rfl⟩
  · refine (gsstep_rel (d := []) h hw hd).bind fun z z' hz => ?_
    rcases hz with ⟨rfl, rfl⟩ | ⟨r, g1, v1, rfl, rfl, hp, hl⟩
    · exact .pure (.inl ⟨rfl, rfl⟩)
    · exact .pure (.inr ⟨_, { x with g := g1 }, v1, g1.pcs, rfl, rfl, hp, hl, .inl ⟨rfl, rfl⟩⟩)
  · have hs := sstep_rel h (a := .write y b) fun x b he => by cases he; exact hw _ _ rfl
    have h2 : RelE O (SameGP O m0 x f) (sstep x.g.s (.write y b) >>= fun z => match z with
          | none => pure none
          | some (_, s) => pure (some (some (.glob .unit), { x with g := { x.g with s := s } })))
        (sstep { x.g.s with w := v } (.write y b) >>= fun z => match z with
          | none => pure none
          | some (_, s) => pure (some (some (.glob .unit), { x with g := { x.g with s := s, dlog := [], pcs := f } }))) := by
      refine hs.bind fun z z' hz => ?_
      rcases hz with ⟨rfl, rfl⟩ | ⟨r, s1, v1, rfl, rfl, hp⟩
      · exact .pure (.inl ⟨rfl, rfl⟩)
      · exact .pure (.inr ⟨_, { x with g := { x.g with s := s1 } }, v1, f, rfl, rfl, hp, rfl, .inr ⟨rfl, rfl⟩⟩)
    exact h2

theorem gpstep_proxy {x : GPS} {a : PAct} (hgo : ∀ t ch, a = .shared (.go t ch) → x.g.pcs t = .idle) :
    gpstep x (.proxy a) = (pstep x.ps a >>= fun z => match z with
      | none => pure none
      | some (r, p) => pure (some (r.map .proxy, x.withPS p))) := by
  unfold gpstep
  split
  · rename_i h'; cases h'
  · rename_i t ch h'
    cases h'
    rw [if_pos (hgo t ch rfl)]
    rfl
  · rename_i h'
    injection h' with h'
    rw [h']
    rfl

theorem gpstep_rel_proxy {O m0 v} {x : GPS} {f p0 P} (h : Priv O m0 x.g.s.w v) (hR : PReach p0 (x.veil v f).ps P) {a : PAct}
    (ha : a.atProxy = true) (hgo : ∀ t ch, a = .shared (.go t ch) → x.g.pcs t = .idle ∧ f t = .idle) :
    RelE O (SameGP O m0 x f) (gpstep x (.proxy a)) (gpstep (x.veil v f) (.proxy a)) := by
  rw [gpstep_proxy (fun t ch he => (hgo t ch he).1), gpstep_proxy (x := x.veil v f) (fun t ch he => (hgo t ch he).2)]
  have hr := pstep_rel (ps := x.ps) h (a := a) (by rintro y b rfl; cases ha)
    fun t ch p _ h1 h2 sl s' h3 => .inr (hR.answered (ch := ch) h1 h2 h3)
  refine hr.bind fun z z' hz => ?_
  rcases hz with ⟨rfl, rfl⟩ | ⟨r, ps1, v1, rfl, rfl, hp⟩
  · exact .pure (.inl ⟨rfl, rfl⟩)
  · exact .pure (.inr ⟨_, x.withPS ps1, v1, f, rfl, rfl, hp, rfl, .inr ⟨rfl, rfl⟩⟩)

/-- What may go wrong: the underlying allocator breaks its contract in this step, or a debug build meets the assertion described at
`PS.EmptyChunk`. -/
def GDBad (x : GPS) (O : List BaseBlk) (a : GPAct) (e : Fault) : Prop :=
  BadAnswer x.g.s.w e ∨ (∃ a', a = .proxy a' ∧ x.ps.EmptyChunk a' e) ∨ ∃ l sl, e = .env l sl ∧ Hits O sl

theorem gp_alone {y0 x : GPS} {K1 O m0 v f} {a : GPAct} (hy : GPReach y0 (x.veil v f) K1) (hl : GPLegal K1 a) (hp : Priv O m0 x.g.s.w v)
    (hr : RelE O (SameGP O m0 x f) (gpstep x a) (gpstep (x.veil v f) a)) :
    (∃ e, gpstep x a = .error e ∧ GDBad x O a e) ∨
    (gpstep x a = .ok none ∧ gpstep (x.veil v f) a = .ok none) ∨
    ∃ r x' v' f', gpstep x a = .ok (some (r, x')) ∧ gpstep (x.veil v f) a = .ok (some (r, x'.veil v' f')) ∧ Priv O m0 x'.g.s.w v' ∧
      x'.g.dlog = x.g.dlog ∧ ((f = x.g.pcs ∧ f' = x'.g.pcs) ∨ (f' = f ∧ x'.g.pcs = x.g.pcs)) := by
  cases hs : gpstep (x.veil v f) a with
  | error e =>
    have hb : BadAnswer v e ∨ ∃ a', a = .proxy a' ∧ (x.veil v f).ps.EmptyChunk a' e := by
      rcases C79_no_fault hy hl with ⟨_, _, _, h1, _⟩ | ⟨e', h1, h2⟩ | ⟨h1, _⟩
      · rw [hs] at h1; cases h1
      · rw [hs] at h1; cases h1; exact h2
      · rw [hs] at h1; cases h1
    have hn : ∀ why, e ≠ .ub why := by
      rcases hb with hb | ⟨_, _, _, rfl, _⟩
      · exact hb.not_ub
      · intro why he; cases he
    rcases hr.2 e hn hs with h1 | ⟨l, sl, h1, h2⟩
    · refine .inl ⟨e, h1, ?_⟩
      rcases hb with hb | ⟨a', ha, h2, h3, h4⟩
      · exact .inl (hb.mono hp)
      · exact .inr (.inl ⟨a', ha, hp.debug.trans h2, h3, h4⟩)
    · exact .inl ⟨_, h1, .inr (.inr ⟨l, sl, rfl, h2⟩)⟩
  | ok q =>
    rcases hr.1 q hs with ⟨p, h1, h2⟩ | ⟨l, sl, h1, h2⟩
    · rcases h2 with ⟨rfl, rfl⟩ | ⟨r, x', v', f', rfl, rfl, h3⟩
      · exact .inr (.inl ⟨h1, rfl⟩)
      · exact .inr (.inr ⟨r, x', v', f', h1, rfl, h3⟩)
    · exact .inl ⟨_, h1, .inr (.inr ⟨l, sl, rfl, h2⟩)⟩

/-! ### The books -/

theorem SameBlink.px {K K1 : GPBook} (h : SameBlink K K1) : K1.px = K.px := by
  unfold GPBook.px; rw [h.live, h.led, h.pbusy]

theorem SameBlink.idle {K K1 : GPBook} (h : SameBlink K K1) {t : Nat} (hb : K.busy t = none) : K1.busy t = none := by
  rw [h.busy]; split
  · exact hb
  · rfl

theorem SameBlink.off {K K1 : GPBook} (h : SameBlink K K1) (hm : K.blinkMode = false) (t : Nat) : K1.busy t = none := by
  rw [h.busy, if_neg (by rw [hm]; simp)]

theorem SameBlink.on {K K1 : GPBook} (h : SameBlink K K1) (hm : K.blinkMode = true) : K1.busy = K.busy := by
  rw [h.busy, if_pos hm]

theorem SameBlink.cur {K K1 : GPBook} (h : SameBlink K K1) (hm : K.blinkMode = true) : K1.cur = K.cur := by
  unfold GBook.cur; rw [h.mode, h.blink, if_pos hm, if_pos hm]

theorem SameBlink.legal {K K1 : GPBook} (h : SameBlink K K1) {a : GPAct} (hl : GPLegal K a)
    (hw : ∀ y v, a = .glob (.write y v) → (∃ b ∈ K.blink, b.Has y) ∨ ∃ i, ∃ b ∈ K.led i, b.Has y) : GPLegal K1 a := by
  cases hl with
  | call hl hm hp =>
    refine .call ?_ (h.mode.trans hm) (by rw [h.pbusy]; exact hp)
    cases hl with
    | alloc hb hv hz => exact .alloc (h.idle hb) hv hz
    | allocZeroed hb hv hz => exact .allocZeroed (h.idle hb) hv hz
    | dealloc hb ho hi => exact .dealloc (h.idle hb) (by rw [h.cur hm]; exact ho) hi
    | realloc hb ho hi hz => exact .realloc (h.idle hb) (by rw [h.cur hm]; exact ho) hi hz
  | go => exact .go
  | write =>
    rcases hw _ _ rfl with ⟨b, hb, hx⟩ | ⟨i, b, hb, hx⟩
    · exact .write (.write (List.mem_append_left _ (by rw [h.blink]; exact hb)) hx)
    · exact .pwrite (i := i) (by rw [h.led]; exact hb) hx
  | pwrite hb hx => exact .pwrite (by rw [h.led]; exact hb) hx
  | reset hl hn => cases hl with | reset hq => exact .reset (.reset fun t => h.idle (hq t)) (by rw [h.live]; exact hn)
  | blinkMode hl => cases hl with | blinkMode hq => exact .blinkMode (.blinkMode fun t => h.idle (hq t))
  | directMode hl hn => cases hl with | directMode hq => exact .directMode (.directMode fun t => h.idle (hq t)) (by rw [h.live]; exact hn)
  | proxy ha hl hb => exact .proxy ha (by rw [h.px]; exact hl) fun i hi => h.idle (hb i hi)

theorem PAfter.remem {m m1 : Nat → Byte} {K : PBook} {a : PAct} {r K'} (ha : a.atProxy = true) (h : PAfter m K a r K')
    (hb : ∀ t, K.direct.busy t = none) : PAfter m1 K a r K' := by
  cases h with
  | @direct a r D' h hr =>
    cases a with
    | go t ch =>
      cases h with
      | inside => exact .direct .inside (.inl rfl)
      | ret hb' => rw [hb t] at hb'; cases hb'
    | _ => cases ha
  | back hb => exact .back hb
  | spawn => exact .spawn
  | allocate => exact .allocate
  | resize hb hf => exact .resize hb hf
  | deallocate hb hf => exact .deallocate hb hf
  | reset => exact .reset
  | resetUnchecked => exact .resetUnchecked
  | drop => exact .drop
  | updateMax => exact .updateMax
  | sync => exact .sync

/-- How the books change in a step that is no direct call. -/
theorem SameBlink.after {K K1 : GPBook} (h : SameBlink K K1) {m m1 : Nat → Byte} {a : GPAct} {r K'} (ha : GPAfter m K a r K')
    (hat : ∀ a', a = .proxy a' → a'.atProxy = true)
    (hd : (∃ t c, a = .glob (.call t c)) ∨ (∃ t ch, a = .glob (.go t ch)) → K.blinkMode = true)
    (hq : a = .glob .blinkMode ∨ a = .glob .directMode → ∀ t, K.busy t = none)
    (hm : ∀ b ∈ K.blink, ∀ x, b.Has x → m1 x = m x) : ∃ K1', GPAfter m1 K1 a r K1' ∧ SameBlink K' K1' := by
  cases ha with
  | @proxy a r P ha =>
    refine ⟨_, .proxy (by rw [h.px]; exact ha.remem (hat _ rfl) fun _ => rfl), ⟨h.mode, h.blink, h.direct, rfl, rfl, rfl, h.busy, h.snap⟩⟩
  | @glob a r G ha =>
    have enter : ∀ {t c} {ob : Option Owned} {B : List Owned}, K.blinkMode = true → (∀ b, ob = some b → b ∈ K.blink) →
        SameBlink { K with toGSBook := { toGBook := { K.toGBook with blink := B }, busy := put K.busy t (some (c, ob)), snap := put K.snap t m } }
          { K1 with toGSBook := { toGBook := { K1.toGBook with blink := B }, busy := put K1.busy t (some (c, ob)), snap := put K1.snap t m1 } } := by
      intro t c ob B hmd hob
      refine ⟨h.mode, rfl, h.direct, h.live, h.led, h.pbusy, ?_, ?_⟩
      · show put K1.busy t _ = if K.blinkMode = true then put K.busy t _ else _
        rw [if_pos hmd, h.on hmd]
      · intro _ u c' b hb x hx
        dsimp only at hb ⊢
        by_cases hu : u = t
        · subst hu
          rw [put_same] at hb
          rw [put_same, put_same]
          cases hb
          exact hm b (hob b rfl) x hx
        · rw [put_ne _ _ hu] at hb
          rw [put_ne _ _ hu, put_ne _ _ hu]
          exact h.snap hmd u c' b hb x hx
    have cur : ∀ {b}, K.blinkMode = true → b ∈ K.cur → b ∈ K.blink := by
      intro b hmd hb; unfold GBook.cur at hb; rwa [if_pos hmd] at hb
    have del : ∀ b, K.blinkMode = true → K.toGBook.del b = { K.toGBook with blink := K.blink.erase b } := by
      intro b hmd; unfold GBook.del; rw [if_pos hmd]
    have del1 : ∀ b, K.blinkMode = true → K1.toGBook.del b = { K1.toGBook with blink := K.blink.erase b } := by
      intro b hmd; unfold GBook.del; rw [if_pos (h.mode.trans hmd), h.blink]
    cases ha with
    | @alloc t l =>
      have hmd := hd (.inl ⟨_, _, rfl⟩)
      have := enter (c := .alloc l) (ob := none) (B := K.blink) (t := t) hmd (by simp)
      refine ⟨_, .glob .alloc, ?_⟩
      have e : K1.toGBook = { K1.toGBook with blink := K.blink } := by rw [← h.blink]
      rw [e]; exact this
    | @allocZeroed t l =>
      have hmd := hd (.inl ⟨_, _, rfl⟩)
      have := enter (c := .allocZeroed l) (ob := none) (B := K.blink) (t := t) hmd (by simp)
      refine ⟨_, .glob .allocZeroed, ?_⟩
      have e : K1.toGBook = { K1.toGBook with blink := K.blink } := by rw [← h.blink]
      rw [e]; exact this
    | @dealloc t b p l ho hi =>
      have hmd := hd (.inl ⟨_, _, rfl⟩)
      refine ⟨_, .glob (.dealloc (by rw [h.cur hmd]; exact ho) hi), ?_⟩
      rw [del b hmd, del1 b hmd]
      exact enter hmd (by rintro _ ⟨⟩; exact cur hmd ho)
    | @realloc t b p l n ho hi =>
      have hmd := hd (.inl ⟨_, _, rfl⟩)
      refine ⟨_, .glob (.realloc (by rw [h.cur hmd]; exact ho) hi), ?_⟩
      rw [del b hmd, del1 b hmd]
      exact enter hmd (by rintro _ ⟨⟩; exact cur hmd ho)
    | inside => exact ⟨_, .glob .inside, h⟩
    | @ret t ch c ob q hb =>
      have hmd := hd (.inr ⟨_, _, rfl⟩)
      refine ⟨_, .glob (r := some q) (.ret (by rw [h.on hmd]; exact hb)), ?_⟩
      have e : K.addL (ggets c ob q) = { K.toGBook with blink := ggets c ob q ++ K.blink } := by unfold GBook.addL; rw [if_pos hmd]
      have e1 : K1.addL (ggets c ob q) = { K1.toGBook with blink := ggets c ob q ++ K.blink } := by
        unfold GBook.addL; rw [if_pos (h.mode.trans hmd), h.blink]
      rw [e, e1]
      refine ⟨h.mode, rfl, h.direct, h.live, h.led, h.pbusy, ?_, ?_⟩
      · show put K1.busy t _ = if K.blinkMode = true then put K.busy t _ else _
        rw [if_pos hmd, h.on hmd]
      · intro _ u c' b hb' x hx
        dsimp only at hb' ⊢
        by_cases hu : u = t
        · subst hu; rw [put_same] at hb'; cases hb'
        · rw [put_ne _ _ hu] at hb'; exact h.snap hmd u c' b hb' x hx
    | write => exact ⟨_, .glob (r := some .unit) .write, h⟩
    | reset => exact ⟨_, .glob (r := some .unit) .reset, ⟨h.mode, rfl, h.direct, h.live, h.led, h.pbusy, h.busy, h.snap⟩⟩
    | resetPanic => exact ⟨_, .glob (r := some .panicked) .resetPanic, h⟩
    | blinkMode =>
      refine ⟨_, .glob (r := some .unit) .blinkMode, ⟨rfl, h.blink, h.direct, h.live, h.led, h.pbusy, ?_, ?_⟩⟩
      · funext t
        show K1.busy t = K.busy t
        rw [hq (.inl rfl) t, h.idle (hq (.inl rfl) t)]
      · intro _ t c b hb
        dsimp only at hb
        rw [hq (.inl rfl) t] at hb; cases hb
    | directMode =>
      refine ⟨_, .glob (r := some .unit) .directMode, ⟨rfl, rfl, h.direct, h.live, h.led, h.pbusy, ?_, ?_⟩⟩
      · funext t
        show K1.busy t = none
        exact h.idle (hq (.inr rfl) t)
      · intro hf; cases hf
    | directPanic => exact ⟨_, .glob (r := some .panicked) .directPanic, h⟩

end Blink
