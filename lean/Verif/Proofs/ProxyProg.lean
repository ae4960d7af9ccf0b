import Verif.Proofs.ProxyGo
import Verif.Proofs.ProxyMax
import Verif.Spec.ProxyProg
/-
  A call through a proxy finishes if the identity runs undisturbed.
-/
namespace Blink

theorem psolo_step {ps ps' : PS} {t : Nat} (he : pstep ps (.shared (.go t fresh)) = .ok (some (none, ps'))) (m : Nat) :
    psolo (m + 1) ps t = psolo m ps' t := by
  conv => lhs; unfold psolo
  rw [he]

theorem psolo_ret {ps ps' : PS} {t : Nat} {r : Resp} (he : pstep ps (.shared (.go t fresh)) = .ok (some (some r, ps'))) (m : Nat) :
    psolo (m + 1) ps t = .ok (some (r, ps')) := by
  unfold psolo
  rw [he]

theorem psolo_err {ps : PS} {t : Nat} {e : Fault} (he : pstep ps (.shared (.go t fresh)) = .error e) (m : Nat) :
    psolo (m + 1) ps t = .error e := by
  unfold psolo
  rw [he]

/-- A step inside a call of the shared allocator. -/
theorem PInv.goNone {p0 ps K KS cs pend} (h : PInv p0 ps K KS cs pend) {t : Nat} {ch : Choice} {s' : SS}
    (he : sstep ps.s (.go t ch) = .ok (some (none, s'))) :
    pstep ps (.shared (.go t ch)) = .ok (some (none, { ps with s := s' })) ∧ PInv p0 { ps with s := s' } K KS cs pend := by
  refine ⟨by simp only [pstep]; rw [ebind_ok he]; rfl, ?_⟩
  have hnr' : Act.go t ch ≠ .reset ∧ Act.go t ch ≠ .resetUnchecked ∧ Act.go t ch ≠ .resetFinal := by simp
  have hfr : ∀ o ∈ KS.owned, ∀ x, o.Has x → s'.w.mem x = ps.s.w.mem x :=
    fun o ho x hx => C23_frame h.reach .go he ho hx (by simp) hnr'
  obtain ⟨h0, tr, hr⟩ := h.reach
  have hreach : SReach p0.s s' KS := ⟨h0, _, hr.snoc .go he .inside⟩
  refine ⟨hreach, ?_, h.hist, h.tiles, ?_, h.snap⟩
  · show s'.w.top ≤ _
    rw [hreach.top, ← h.reach.top]; exact h.top
  · intro u
    refine (h.px u).frame (hreach.top.trans h.reach.top.symm) ?_
    intro x hx
    obtain ⟨o, ho, hox⟩ := h.inCs hx
    exact hfr o (h.tiles.mem (i := u) ho) x hox

/-- An undisturbed identity follows its call of the shared allocator up to the step that answers it. -/
theorem PInv.psolo_call {p0 : PS} {K : PBook} {KS : Book} {cs pend : Nat → List Chunk} {t : Nat} :
    ∀ (n : Nat) {ps : PS}, PInv p0 ps K KS cs pend → ps.s.Free t →
    (∀ r s', solo n ps.s t = .ok (some (r, s')) → ∃ k s1, k < n ∧ PInv p0 { ps with s := s1 } K KS cs pend ∧
      s1.Free t ∧ s'.Free t ∧ sstep s1 (.go t fresh) = .ok (some (some r, s')) ∧ ∀ m, psolo (k + m) ps t = psolo m { ps with s := s1 } t) ∧
    (∀ e, solo n ps.s t = .error e → psolo n ps t = .error e) := by
  intro n
  induction n with
  | zero => intro ps h hf; exact ⟨by rintro r s' ⟨⟩, by rintro e ⟨⟩⟩
  | succ n ih =>
    intro ps h hf
    obtain ⟨cs0, B0, hi⟩ := h.reach.inv
    unfold solo
    cases hg : goStep ps.s t fresh with
    | error e =>
      refine ⟨by rintro r s' ⟨⟩, ?_⟩
      rintro e' ⟨⟩
      refine psolo_err ?_ n
      simp only [pstep]; rw [ebind_err (show sstep ps.s (.go t fresh) = _ from hg)]
    | ok x =>
      rcases x with _ | ⟨_ | r, s⟩
      · exact ⟨by rintro r s' ⟨⟩, by rintro e ⟨⟩⟩
      · obtain ⟨he, h'⟩ := h.goNone (show sstep ps.s (.go t fresh) = _ from hg)
        have hf' : s.Free t := (hi.go_res hg).free' hf
        obtain ⟨i1, i2⟩ := ih (ps := { ps with s := s }) h' hf'
        refine ⟨fun r s' hs => ?_, fun e hs => ?_⟩
        · obtain ⟨k, s1, h0, h1, h2, h3, h4, h5⟩ := i1 r s' hs
          exact ⟨k + 1, s1, by omega, h1, h2, h3, h4, fun m => by
            rw [show k + 1 + m = (k + m) + 1 by omega, psolo_step he]; exact h5 m⟩
        · rw [psolo_step he]; exact i2 e hs
      · refine ⟨?_, by rintro e ⟨⟩⟩
        rintro r' s' ⟨⟩
        exact ⟨0, ps.s, by omega, h, hf, (hi.go_res hg).free' hf, hg, fun m => by rw [Nat.zero_add]⟩

/-- An answer ends calls other than `reset_unchecked`. -/
theorem resume_ends {ps ps' : PS} {i : Nat} {a : BA} {v : Resp} {pc : PPc} {r : Option Resp} (hp : ∀ n, pc ≠ .chain n)
    (he : PS.resume ps i a v pc = .ok (some (r, ps'))) : r ≠ none := by
  cases pc with
  | idle => cases he
  | chain n => exact absurd rfl (hp n)
  | alloc l =>
    cases v with
    | block sl =>
      simp only [PS.resume] at he
      obtain ⟨x, _, he⟩ := ebind_inv he
      injection he with he; injection he with he; injection he with he _
      rw [← he]; simp
    | unit => injection he with he; injection he with he; injection he with he _; rw [← he]; simp
    | err => injection he with he; injection he with he; injection he with he _; rw [← he]; simp
  | resize p old new =>
    cases v with
    | block sl =>
      simp only [PS.resume] at he
      obtain ⟨x, _, he⟩ := ebind_inv he
      obtain ⟨y, _, he⟩ := ebind_inv he
      injection he with he; injection he with he; injection he with he _
      rw [← he]; simp
    | unit => injection he with he; injection he with he; injection he with he _; rw [← he]; simp
    | err => injection he with he; injection he with he; injection he with he _; rw [← he]; simp

/-- `reset_unchecked` goes on to the next chunk. -/
theorem PInv.resumeChain {p0 ps K KS cs pend} (h : PInv p0 ps K KS cs pend) {t : Nat} {ch : Choice} {r : Resp} {s' : SS}
    (hs : sstep ps.s (.go t ch) = .ok (some (some r, s'))) {ob : Option Owned} (hb : K.pbusy t = some (.resetUnchecked, ob)) :
    ∃ r' ps', pstep ps (.shared (.go t ch)) = .ok (some (r', ps')) ∧ (s'.Free t → ps'.s.Free t) ∧
      (r' = none → ∃ KS' cs' pend', PInv p0 ps' K KS' cs' pend' ∧ (pend' t).length < (pend t).length) := by
  obtain ⟨e1, e2, _⟩ := h.reach.ret_w hs
  have hx := h.px t
  generalize hkb : KS.busy t = kb at hx
  generalize hdb : K.direct.busy t = db at hx
  generalize hlv : K.live t = lv at hx
  generalize hld : K.led t = ld at hx
  generalize hpd : pend t = pd at hx
  generalize hcs : cs t = csi at hx
  generalize hp : ps.px t = px at hx
  rw [hb] at hx
  cases hx with
  | @chain c m _ p n b hv hP hm hcur =>
    rw [pstep_go_wait hs hp (by simp)]
    obtain ⟨h0, tr, hr⟩ := h.reach
    have hreach : SReach p0.s s' { KS with owned := gets (.deallocate p n) (some b) r ++ KS.owned, busy := put KS.busy t none } :=
      ⟨h0, _, hr.snoc .go hs (.ret hkb)⟩
    have hg : gets (.deallocate p n) (some b) r = [] := by cases r <;> rfl
    have hacc : Acc ps.s.w pd := fun d hd => h.acc t d (by rw [hcs, hpd]; exact List.mem_append_right _ hd)
    obtain ⟨r', ps', q1, q2, q3, q4⟩ := h.chainStep' (i := t) (m := m) (c := c) (P := pd) (KS1 := { KS with owned := gets (.deallocate p n) (some b) r ++ KS.owned, busy := put KS.busy t none }) (ps1 := { ps with s := s' })
      (w := s'.w) rfl rfl hreach (put_same _ _ _) (fun u hu => put_ne _ _ hu) (by
        intro R hR
        refine ⟨[], ?_⟩
        rw [hcs, hpd] at hR
        rw [hg]
        simpa using hR) (fun u _ x _ => by rw [e1]) (by rw [e1]; exact hv) (by rw [e1]; exact hP) (by rw [e1]; exact hacc) hm hcur
      (fun d hd => by rw [hpd]; exact List.mem_append_right _ hd)
    simp only [PS.resume]
    refine ⟨r', ps', q1, ?_, ?_⟩
    · intro hf
      rw [freeNext_eq (by rw [e1]; exact hP) (by rw [e1]; exact hacc)] at q1
      cases pd with
      | nil =>
        injection q1 with q1; injection q1 with q1; injection q1 with _ q1
        rw [← q1]; exact hf
      | cons d t' =>
        simp only [PS.ask] at q1
        split at q1
        · injection q1 with q1; injection q1 with q1; injection q1 with _ q1
          rw [← q1]; exact hf
        · rename_i hno; exact absurd e2 hno
    · intro hn
      subst hn
      obtain ⟨KS', cs', pend', h1, _, _, h2⟩ := q4 K rfl (fun u hu => ⟨rfl, rfl, rfl⟩) hlv hld hdb hb
      exact ⟨KS', cs', pend', h1, h2 rfl⟩

/-- The call of the shared allocator an identity inside is executing. -/
theorem PInv.inside {p0 ps K KS cs pend} (h : PInv p0 ps K KS cs pend) {t : Nat} (hb : K.Inside t) :
    ∃ c ob, KS.busy t = some (c, ob) ∧ (K.pbusy t ≠ none → c.bytes = 0) ∧ (K.pbusy t = none → K.direct.busy t = some (c, ob)) := by
  have hx := h.px t
  unfold PBook.Inside at hb
  generalize KS.busy t = kb at hx ⊢
  generalize K.direct.busy t = db at hx hb ⊢
  generalize K.pbusy t = pb at hx hb ⊢
  generalize K.live t = lv at hx
  generalize K.led t = ld at hx
  generalize pend t = pd at hx
  generalize cs t = csi at hx
  generalize ps.px t = px at hx
  cases hx with
  | absent =>
    cases kb with
    | none => simp at hb
    | some z => exact ⟨z.1, z.2, rfl, by simp, by simp⟩
  | idle =>
    cases kb with
    | none => simp at hb
    | some z => exact ⟨z.1, z.2, rfl, by simp, by simp⟩
  | alloc => exact ⟨_, _, rfl, fun _ => rfl, by simp⟩
  | resize => exact ⟨_, _, rfl, fun _ => rfl, by simp⟩
  | chain => exact ⟨_, _, rfl, fun _ => rfl, by simp⟩

/-- Identities outside are outside the shared allocator too. -/
theorem PInv.outside {p0 ps K KS cs pend} (h : PInv p0 ps K KS cs pend) {t : Nat} : K.Inside t ↔ KS.busy t ≠ none := by
  constructor
  · intro hb
    obtain ⟨c, ob, h1, _⟩ := h.inside hb
    rw [h1]; simp
  · intro hb
    unfold PBook.Inside
    by_cases hp : K.pbusy t = none
    · exact .inl (by rw [h.busyD hp]; exact hb)
    · exact .inr hp

/-- The step after which a call other than `reset_unchecked` returns. -/
theorem PInv.ends {p0 ps K KS cs pend} (h : PInv p0 ps K KS cs pend) {t : Nat} {ch : Choice} {r : Resp} {s' : SS}
    (hs : sstep ps.s (.go t ch) = .ok (some (some r, s'))) (hb : ∀ ob, K.pbusy t ≠ some (.resetUnchecked, ob)) :
    (∃ e, K.pbusy t ≠ none ∧ ps.EmptyChunk (.shared (.go t ch)) e ∧ pstep ps (.shared (.go t ch)) = .error e) ∨
    ∃ r' ps', pstep ps (.shared (.go t ch)) = .ok (some (some r', ps')) := by
  have hx := h.px t
  generalize KS.busy t = kb at hx
  generalize K.direct.busy t = db at hx
  generalize hpb : K.pbusy t = pb at hx
  generalize K.live t = lv at hx
  generalize K.led t = ld at hx
  generalize pend t = pd at hx
  generalize cs t = csi at hx
  generalize hp : ps.px t = px at hx
  have wait : ∀ p, px = some p → pb ≠ none → p.pc ≠ .idle → (∀ n, p.pc ≠ .chain n) →
      (∃ e, pb ≠ none ∧ ps.EmptyChunk (.shared (.go t ch)) e ∧ pstep ps (.shared (.go t ch)) = .error e) ∨
      ∃ r' ps', pstep ps (.shared (.go t ch)) = .ok (some (some r', ps')) := by
    intro p h1 h0 h2 h3
    subst h1
    rcases h.resume hs hp h2 with ⟨e, he⟩ | ⟨r', ps', he, _, _⟩
    · exact .inl ⟨e, h0, he⟩
    refine .inr ?_
    rw [pstep_go_wait hs hp h2] at he ⊢
    cases r' with
    | none => exact absurd rfl (resume_ends h3 he)
    | some r' => exact ⟨r', ps', he⟩
  cases hx with
  | absent => refine .inr ⟨r, { ps with s := s' }, ?_⟩; simp only [pstep]; rw [ebind_ok hs]; simp only [hp]; rfl
  | idle => refine .inr ⟨r, { ps with s := s' }, ?_⟩; simp only [pstep]; rw [ebind_ok hs]; simp only [hp, if_true]; rfl
  | alloc => exact wait _ rfl (by simp) (by simp) (by simp)
  | resize => exact wait _ rfl (by simp) (by simp) (by simp)
  | chain => exact absurd hpb (hb _)

/-- Calls other than `reset_unchecked` of a proxy: within the steps of one call of the shared allocator. -/
theorem PInv.finishes {p0 ps K KS cs pend} (h : PInv p0 ps K KS cs pend) {t : Nat} (hf : ps.s.Free t) {c : Call} {ob : Option Owned}
    (hc : KS.busy t = some (c, ob)) (hb : ∀ ob, K.pbusy t ≠ some (.resetUnchecked, ob)) :
    (∃ r ps', psolo (c.bytes + 10) ps t = .ok (some (r, ps'))) ∨
      ∃ e, psolo (c.bytes + 10) ps t = .error e ∧
        ((∃ w, w.oracle = p0.s.w.oracle ∧ BadAnswer w e) ∨ K.pbusy t ≠ none ∧ ps.EmptyChunk (.shared (.go t fresh)) e) := by
  obtain ⟨h1, h2⟩ := h.psolo_call (c.bytes + 10) hf
  rcases C24_finishes_alone h.reach hc hf with ⟨r, s', hs⟩ | ⟨e, w, hs, ho, hbad⟩
  · obtain ⟨k, s1, hk, hi, _, _, hstep, hm⟩ := h1 r s' hs
    have := hm (c.bytes + 10 - k)
    rw [show k + (c.bytes + 10 - k) = c.bytes + 10 by omega, show c.bytes + 10 - k = (c.bytes + 9 - k) + 1 by omega] at this
    rw [this]
    rcases hi.ends hstep hb with ⟨e, hpb, ⟨g1, g2⟩, he⟩ | ⟨r', ps', he⟩
    · refine .inr ⟨e, psolo_err he _, .inr ⟨hpb, ?_, g2⟩⟩
      rw [h.reach.debug, ← hi.reach.debug]; exact g1
    · exact .inl ⟨r', ps', psolo_ret he _⟩
  · exact .inr ⟨e, h2 e hs, .inl ⟨w, ho, hbad⟩⟩

/-- `reset_unchecked` of a proxy: ten steps for each chunk that is still to be given back. -/
theorem PInv.chainFinishes {p0 : PS} {K : PBook} {t : Nat} {ob : Option Owned} (hb : K.pbusy t = some (.resetUnchecked, ob)) :
    ∀ (n : Nat) {ps KS cs pend}, PInv p0 ps K KS cs pend → ps.s.Free t → (pend t).length < n →
    (∃ r ps', psolo (10 * n) ps t = .ok (some (r, ps'))) ∨
      ∃ e w, psolo (10 * n) ps t = .error e ∧ w.oracle = p0.s.w.oracle ∧ BadAnswer w e := by
  have more : ∀ {a n ps r}, psolo n ps t = .ok (some r) → psolo (n + a) ps t = .ok (some r) := by
    intro a n
    induction n with
    | zero => intro ps r h; cases h
    | succ n ih =>
      intro ps r h
      rw [show n + 1 + a = (n + a) + 1 by omega]
      unfold psolo at h ⊢
      split at h
      · cases h
      · cases h
      · exact h
      · exact ih h
  have moreE : ∀ {a n ps e}, psolo n ps t = .error e → psolo (n + a) ps t = .error e := by
    intro a n
    induction n with
    | zero => intro ps r h; cases h
    | succ n ih =>
      intro ps r h
      rw [show n + 1 + a = (n + a) + 1 by omega]
      unfold psolo at h ⊢
      split at h
      · exact h
      · cases h
      · cases h
      · exact ih h
  intro n
  induction n with
  | zero => intro ps KS cs pend h hf hn; omega
  | succ n ih =>
    intro ps KS cs pend h hf hn
    obtain ⟨c, oc, hc, hc0, _⟩ := h.inside (t := t) (.inr (by rw [hb]; simp))
    have hc0 := hc0 (by rw [hb]; simp)
    obtain ⟨h1, h2⟩ := h.psolo_call (c.bytes + 10) hf
    rcases C24_finishes_alone h.reach hc hf with ⟨r, s', hs⟩ | ⟨e, w, hs, ho, hbad⟩
    · obtain ⟨k, s1, hk, hi, _, hf', hstep, hm⟩ := h1 r s' hs
      rw [hc0] at hk
      obtain ⟨r', ps', he, hf'', hnext⟩ := hi.resumeChain hstep hb
      have key : ∀ m, psolo (k + (m + 1)) ps t = psolo (m + 1) { ps with s := s1 } t := fun m => hm _
      cases r' with
      | some r' =>
        refine .inl ⟨r', ps', ?_⟩
        rw [show 10 * (n + 1) = k + ((10 * n + 9 - k) + 1) by omega, key]
        exact psolo_ret he _
      | none =>
        obtain ⟨KS', cs', pend', h', hlt⟩ := hnext rfl
        have hp : psolo (10 * (n + 1)) ps t = psolo (10 * n + (9 - k)) ps' t := by
          rw [show 10 * (n + 1) = k + ((10 * n + (9 - k)) + 1) by omega, key]
          exact psolo_step he _
        rw [hp]
        rcases ih h' (hf'' hf') (by omega) with ⟨r, ps2, h3⟩ | ⟨e, w, h3, h4, h5⟩
        · exact .inl ⟨r, ps2, more h3⟩
        · exact .inr ⟨e, w, moreE h3, h4, h5⟩
    · refine .inr ⟨e, w, ?_, ho, hbad⟩
      have := h2 e hs
      rw [hc0] at this
      rw [show 10 * (n + 1) = 0 + 10 + 10 * n by omega]
      exact moreE this

end Blink
