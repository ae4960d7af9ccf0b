import Verif.Spec.Contract
import Verif.Proofs.SyncRun
import Verif.Proofs.HBGo
import Verif.Proofs.SyncFrame
import Verif.Proofs.HB
/-
  The calls of threads on a `SyncBlinkAlloc` can be thought of as happening one at a time: each at the step that decides its answer.
-/
namespace Blink

/-- The blocks a thread has handed over or is about to get, if its call happens when its answer is decided. -/
def Pc.pend : Option (Call × Option Owned) → Pc → List Owned
  | some (c, ob), .ret _ r => gets c ob r
  | some (_, ob), _ => ob.toList
  | none, _ => []

/-- Where such a thread is. -/
def Pc.abs : Option (Call × Option Owned) → Pc → AbsThr
  | some _, .ret _ r => .done r
  | some (c, _), _ => .called c
  | none, _ => .idle

/-- The answer is decided. -/
def Pc.decided : Pc → Option Resp
  | .ret _ r => some r
  | _ => none

theorem Pc.pend_of {pc : Pc} (h : pc.decided = none) (c ob) : pc.pend (some (c, ob)) = ob.toList := by
  cases pc <;> first | rfl | cases h

theorem Pc.abs_of {pc : Pc} (h : pc.decided = none) (c ob) : pc.abs (some (c, ob)) = .called c := by
  cases pc <;> first | rfl | cases h

theorem TOK.pend_sub {m root sn bz pc B} (h : TOK m root sn bz pc B) : (pc.pend bz).Sublist B := by
  cases h with
  | copy => exact List.sublist_cons_self _ _
  | load _ hj | cas _ hj | unlockSlow hj | wr hj | slow hj => cases hj <;> exact List.Sublist.refl _
  | rload _ hj | rcas _ hj => cases hj; exact List.Sublist.refl _
  | _ => exact List.Sublist.refl _

/-- `L` consists of `owned` and the lists `A t`. -/
def Spread (L owned : List Owned) (A : Nat → List Owned) : Prop :=
  ∃ ts : List Nat, ts.Nodup ∧ (∀ u, u ∉ ts → A u = []) ∧ L.Perm (owned ++ ts.flatMap A)

theorem Spread.focus {L owned A} (h : Spread L owned A) (t : Nat) :
    ∃ R, L.Perm (owned ++ (A t ++ R)) ∧ (∀ b ∈ R, ∃ u, u ≠ t ∧ b ∈ A u) ∧
      ∀ {L' owned' A'}, (∀ u, u ≠ t → A' u = A u) → L'.Perm (owned' ++ (A' t ++ R)) → Spread L' owned' A' := by
  obtain ⟨ts, hn, hz, hL⟩ := h
  have key : ∃ us : List Nat, t ∉ us ∧ us.Nodup ∧ (∀ u, u ∉ t :: us → A u = []) ∧ L.Perm (owned ++ (t :: us).flatMap A) := by
    by_cases ht : t ∈ ts
    · have hp := List.perm_cons_erase ht
      have hn' := hp.nodup_iff.mp hn
      rw [List.nodup_cons] at hn'
      exact ⟨ts.erase t, hn'.1, hn'.2, fun u hu => hz u fun hu' => hu (hp.mem_iff.mp hu'),
        hL.trans ((flatMap_perm A hp).append_left owned)⟩
    · refine ⟨ts, ht, hn, fun u hu => hz u fun hu' => hu (List.mem_cons_of_mem _ hu'), ?_⟩
      rw [List.flatMap_cons, hz t ht]; exact hL
  obtain ⟨us, h1, h2, h3, h4⟩ := key
  refine ⟨us.flatMap A, by rw [List.flatMap_cons] at h4; exact h4, ?_, ?_⟩
  · intro b hb
    rw [List.mem_flatMap] at hb
    obtain ⟨u, hu, hb⟩ := hb
    exact ⟨u, fun he => h1 (he ▸ hu), hb⟩
  · intro L' owned' A' hA hp
    refine ⟨t :: us, List.nodup_cons.mpr ⟨h1, h2⟩, ?_, ?_⟩
    · intro u hu
      rw [hA u (fun he => hu (he ▸ List.mem_cons_self))]
      exact h3 u hu
    · rw [List.flatMap_cons, flatMap_congr' (f := A') (g := A) (fun u hu => hA u (fun he : u = t => h1 (he ▸ hu)))]
      exact hp

theorem Spread.congr {L owned A A'} (h : Spread L owned A) (ha : ∀ u, A' u = A u) : Spread L owned A' := by
  rw [show A' = A from funext ha]; exact h

/-- A step of a thread changes no byte in the used part of a chunk, but those of the block it copies to. -/
theorem SInv.go_used {s0 s cs K B} (h : SInv s0 s cs K B) {t : Nat} {ch : Choice} {r s'} (hgo : goStep s t ch = .ok (some (r, s')))
    {x : Nat} (hx : InUsed cs x 1) (hc : ∀ wr p old new b k, s.pcs t = .copy wr p old new b k → ¬ (Owned.of b new).Has x) :
    s'.w.mem x = s.w.mem x := by
  have hcur : ∀ {c tl n}, cs = c :: tl → (setCursor s.w c n).mem x = s.w.mem x := by
    intro c tl n hc
    have := h.arena.used_not_hdr hx (c := c) (by rw [hc]; exact List.mem_cons_self)
    simp only [setCursor]
    exact setBytes_out (by omega)
  have hslow : ∀ {j o root w'}, s.pcs t = .slow j → allocSlow s.root s.minChunk j.layout s.w = .ok ((o, root), w') →
      w'.mem x = s.w.mem x := by
    intro j o root w' hpc he
    have hj : j.layout.Valid := by
      have := h.thr t
      rw [hpc] at this
      generalize K.busy t = bz at this
      cases this with
      | slow hj => exact hj.valid
    rw [h.root] at he
    rcases allocSlow_spec h.arena hj h.dbg with ⟨e, _, he'⟩ | ⟨r, w1, cs1, he', hr, hi⟩
    · rw [he'] at he; cases he
    · rw [he'] at he
      cases he
      obtain ⟨d, hd, h1, h2⟩ := hx
      have hd' := h.arena.ok d hd
      have := hd'.lo; have := hd'.hi
      cases hr with
      | tooBig => rfl
      | refused => rfl
      | ok R sl m' h' ho hf hb hm hu =>
        have := (freshOk_facts hf).2.2.2.2 _ (h.arena.mem_held hd)
        simp only [Chunk.blk] at this
        exact hm x (by omega)
  cases h.go_res hgo with
  | commit hpc hcs => exact hcur hcs
  | rcommit hpc hcs => exact hcur hcs
  | slowErr hpc he => exact hslow hpc he
  | slowOk hpc he => exact hslow hpc he
  | @copy wr p old new b k hpc hk hu1 hu2 =>
    have := hc _ _ _ _ _ _ hpc
    have ht := h.thr t
    have hlok := h.thr_lok t
    rw [hpc] at ht
    have hb : (Owned.of b new) ∈ B t := by
      generalize K.busy t = bz at ht
      generalize B t = bt at ht
      cases ht
      exact List.mem_cons_self
    have h1 := (hlok.each _ hb).1
    simp only [Owned.of, Owned.Has] at this h1
    exact setBytes_out (m := s.w.mem) (f := fun _ => s.w.mem (_ + _)) (by omega)
  | _ => rfl

/-- The state `σ`, in which threads are as `T` says, is what the state `s` with the book `M` means. (`M` may be the book of some of the users.) -/
structure AbsSim (s : SS) (M : Book) (σ : AbsState) (T : Nat → AbsThr) : Prop where
  thr : ∀ t, T t = (s.pcs t).abs (M.busy t)
  own : Spread σ.owned M.owned fun t => (s.pcs t).pend (M.busy t)
  mem : ∀ b ∈ σ.owned, ∀ x, b.Has x → s.w.mem x = σ.mem x

theorem AbsSim.start {s0 : SS} : AbsSim s0 Book.empty ⟨[], s0.w.mem⟩ (fun _ => .idle) where
  thr := fun _ => rfl
  own := ⟨[], .nil, fun _ _ => rfl, .refl _⟩
  mem := fun b hb => by cases hb

/-- The book `M` is part of the book `K`. -/
structure Book.Part (M K : Book) : Prop where
  owned : ∀ b ∈ M.owned, b ∈ K.owned
  busy : ∀ t q, M.busy t = some q → K.busy t = some q

theorem Book.Part.refl (K : Book) : K.Part K := ⟨fun _ h => h, fun _ _ h => h⟩

theorem Book.Part.pend {M K : Book} (h : M.Part K) {pc : Pc} {u : Nat} : (pc.pend (M.busy u)).Sublist (pc.pend (K.busy u)) := by
  cases hb : M.busy u with
  | none => cases pc <;> exact List.nil_sublist _
  | some q => rw [h.busy u q hb]; exact .refl _

/-- Where the blocks of `σ` come from. -/
theorem AbsSim.from {s0 s cs K B M σ T} (hi : SInv s0 s cs K B) (hM : Book.Part M K) (h : AbsSim s M σ T) {b : Owned} (hb : b ∈ σ.owned) :
    b ∈ M.owned ∨ ∃ u, b ∈ (s.pcs u).pend (M.busy u) ∧ b ∈ B u := by
  obtain ⟨ts, _, _, hL⟩ := h.own
  rcases List.mem_append.mp (hL.mem_iff.mp hb) with h1 | h1
  · exact .inl h1
  · obtain ⟨u, _, h2⟩ := List.mem_flatMap.mp h1
    exact .inr ⟨u, h2, (hi.thr u).pend_sub.subset (hM.pend.subset h2)⟩

theorem AbsSim.used {s0 s cs K B M σ T} (hi : SInv s0 s cs K B) (hM : Book.Part M K) (h : AbsSim s M σ T) {b : Owned} (hb : b ∈ σ.owned) {x : Nat}
    (hx : b.Has x) : InUsed cs x 1 := by
  rcases h.from hi hM hb with h1 | ⟨u, _, h1⟩
  · exact hi.fam.owned.byte (hM.owned b h1) hx
  · exact (hi.thr_lok u).byte h1 hx

/-- The block a thread is about to get, or is copying to, is apart from all others. -/
theorem AbsSim.apart {s0 s cs K B M σ T} (hi : SInv s0 s cs K B) (hM : Book.Part M K) (h : AbsSim s M σ T) {t : Nat} {n : Owned} {bt : List Owned}
    (hB : B t = n :: bt) (hp : ((s.pcs t).pend (K.busy t)).Sublist bt) {b : Owned} (hb : b ∈ σ.owned) : b.Apart n := by
  obtain ⟨R, hL, hR, _⟩ := hi.fam.focus t
  rw [hB] at hL
  have hpw := hL.apart
  rw [List.cons_append, List.pairwise_append, List.pairwise_cons] at hpw
  intro x hx
  rcases h.from hi hM hb with h1 | ⟨u, h1, h2⟩
  · exact hpw.2.2 b (hM.owned b h1) n List.mem_cons_self x hx
  · by_cases hu : u = t
    · subst hu
      exact hpw.2.1.1 b (List.mem_append_left _ (hp.subset (hM.pend.subset h1))) x ⟨hx.2, hx.1⟩
    · exact hpw.2.1.1 b (List.mem_append_right _ (hR u hu b h2)) x ⟨hx.2, hx.1⟩

/-- A step of a thread leaves the bytes of the blocks in use alone. -/
theorem AbsSim.keep {s0 s cs K B M σ T} (hi : SInv s0 s cs K B) (hM : Book.Part M K) (h : AbsSim s M σ T) {t : Nat} {ch : Choice} {r s'}
    (hgo : goStep s t ch = .ok (some (r, s'))) : SameOn σ.owned σ.mem s'.w.mem := by
  intro b hb x hx
  rw [← h.mem b hb x hx]
  refine hi.go_used hgo (h.used hi hM hb hx) ?_
  intro wr p old new b1 k hpc hx1
  have ht := hi.thr t
  rw [hpc] at ht
  obtain ⟨bz, hbz⟩ : ∃ bz, K.busy t = bz := ⟨_, rfl⟩
  obtain ⟨bt, hbt⟩ : ∃ bt, B t = bt := ⟨_, rfl⟩
  rw [hbz, hbt] at ht
  cases ht with
  | copy j hk hc =>
    refine h.apart hi hM (t := t) hbt ?_ hb x ⟨hx, hx1⟩
    rw [hpc, hbz]
    exact List.Sublist.refl _

/-- A step of a thread whose call is not in the book. -/
theorem AbsSim.foreign {s0 s cs K B M σ T} (hi : SInv s0 s cs K B) (hM : Book.Part M K) (h : AbsSim s M σ T) {t : Nat} {ch : Choice} {r s'}
    (hgo : goStep s t ch = .ok (some (r, s'))) (hb : M.busy t = none) : AbsSim s' M σ T := by
  have hother : ∀ u, u ≠ t → s'.pcs u = s.pcs u := fun u hu => hi.goOther hgo hu
  have e1 : ∀ u, (s'.pcs u).abs (M.busy u) = (s.pcs u).abs (M.busy u) := by
    intro u
    by_cases hu : u = t
    · subst hu; rw [hb]; cases s'.pcs u <;> cases s.pcs u <;> rfl
    · rw [hother u hu]
  have e2 : ∀ u, (s'.pcs u).pend (M.busy u) = (s.pcs u).pend (M.busy u) := by
    intro u
    by_cases hu : u = t
    · subst hu; rw [hb]; cases s'.pcs u <;> cases s.pcs u <;> rfl
    · rw [hother u hu]
  exact ⟨fun u => by rw [e1 u]; exact h.thr u, h.own.congr e2, fun b hb x hx => h.keep hi hM hgo b hb x hx⟩

theorem FreshFor.of {s0 s cs K B} (hi : SInv s0 s cs K B) {t : Nat} {l : Layout} {sl : Slice} {bt : List Owned}
    (hB : B t = Owned.of sl l :: bt) {L : List Owned} (ha : ∀ b ∈ L, b.Apart (Owned.of sl l)) : FreshFor L l sl := by
  obtain ⟨h1, _, h3, d, hd, h4, h5⟩ := (hi.thr_lok t).each (Owned.of sl l) (by rw [hB]; exact List.mem_cons_self)
  have hd' := hi.arena.ok d hd
  have := hd'.lo; have := hd'.hi; have := hd'.pos
  have hr := hi.arena.held.rng _ (hi.arena.mem_held hd)
  have := hi.arena.held.top
  simp only [Owned.of, Chunk.blk] at *
  exact ⟨by omega, h3, h1, by omega, ha⟩

/-- A step inside a call: nothing happens, or the call does. -/
theorem AbsSim.inside {s0 s cs K B M σ T} (hi : SInv s0 s cs K B) (hM : Book.Part M K) (h : AbsSim s M σ T) {t : Nat} {ch : Choice} {s'}
    (hgo : goStep s t ch = .ok (some (none, s'))) {cs' B'} (hi' : SInv s0 s' cs' K B') :
    AbsSim s' M σ T ∨ ∃ c r σ', T t = .called c ∧ AbsStep σ c.op r σ' ∧ AbsSim s' M σ' (put T t (.done r)) := by
  have hkeep := h.keep hi hM hgo
  have hother : ∀ u, u ≠ t → s'.pcs u = s.pcs u := fun u hu => hi.goOther hgo hu
  have hundec : (s.pcs t).decided = none := by
    cases hi.go_res hgo <;> rename_i hpc <;> first | (rw [hpc]; rfl) | skip
    all_goals (have hpc' := ‹s.pcs t = _›; rw [hpc']; rfl)
  obtain ⟨R, hperm, hRfrom, hback⟩ := h.own.focus t
  have hap : ∀ n ∈ B' t, ∀ b, b ∈ M.owned ++ R → b.Apart n := by
    intro n hn b hb x hx
    rcases List.mem_append.mp hb with h1 | h1
    · exact hi'.blkOwned hn hx.2 (hM.owned b h1) hx.1
    · obtain ⟨u, hu, h2⟩ := hRfrom b h1
      rw [← hother u hu] at h2
      exact hi'.blkBlk hu hn hx.2 ((hi'.thr u).pend_sub.subset (hM.pend.subset h2)) hx.1
  have ht := hi.thr t
  have ht' := hi'.thr t
  obtain ⟨bt', hbt'⟩ : ∃ bt, B' t = bt := ⟨_, rfl⟩
  rw [hbt'] at ht'
  cases hbz : M.busy t with
  | none => exact .inl (h.foreign hi hM hgo hbz)
  | some q =>
    obtain ⟨c, ob⟩ := q
    have hbK := hM.busy t _ hbz
    rw [hbK] at ht ht'
    have hT : T t = .called c := by rw [h.thr t, hbz]; exact Pc.abs_of hundec c ob
    have hAt : (s.pcs t).pend (M.busy t) = ob.toList := by rw [hbz]; exact Pc.pend_of hundec c ob
    rw [hAt] at hperm
    -- the thread gets to a state in which its answer is `r`
    have done : ∀ {r σ' bt}, (s'.pcs t).abs (M.busy t) = .done r → (s'.pcs t).pend (M.busy t) = bt → AbsStep σ c.op r σ' →
        σ'.owned.Perm (M.owned ++ (bt ++ R)) → (∀ b ∈ σ'.owned, ∀ x, b.Has x → s'.w.mem x = σ'.mem x) →
        AbsSim s' M σ T ∨ ∃ c r σ', T t = .called c ∧ AbsStep σ c.op r σ' ∧ AbsSim s' M σ' (put T t (.done r)) := by
      intro r σ' bt h1 h2 h3 h4 h5
      refine .inr ⟨c, r, σ', hT, h3, ⟨fun u => ?_, hback (fun u hu => ?_) ?_, h5⟩⟩
      · by_cases hu : u = t
        · subst hu; rw [put_same, h1]
        · rw [put_ne _ _ hu, hother u hu, h.thr u]
      · rw [hother u hu]
      · rw [h2]; exact h4
    cases hdec : (s'.pcs t).decided with
    | none =>
      refine .inl ⟨fun u => ?_, hback (fun u hu => ?_) ?_, fun b hb x hx => hkeep b hb x hx⟩
      · by_cases hu : u = t
        · subst hu
          rw [hT, hbz, Pc.abs_of hdec]
        · rw [hother u hu, h.thr u]
      · rw [hother u hu]
      · rw [hbz, Pc.pend_of hdec]; exact hperm
    | some r =>
      obtain ⟨wr, hpc'⟩ : ∃ wr, s'.pcs t = .ret wr r := by
        cases hp : s'.pcs t <;> rw [hp] at hdec <;> first | (cases hdec; done) | skip
        cases hdec
        exact ⟨_, rfl⟩
      rw [hpc'] at ht' done
      rw [hbz] at done
      cases ht' with
      | @retAllocOk l _ sl =>
        have hf : FreshFor σ.owned l sl := .of hi' hbt' fun b hb =>
          hap _ (by rw [hbt']; exact List.mem_cons_self) b (hperm.mem_iff.mp hb)
        refine done rfl rfl (.allocate hf hkeep) ?_ (fun b _ x hx => rfl)
        exact (hperm.cons _).trans List.perm_middle.symm
      | retAllocErr => exact done rfl rfl (.refused rfl hkeep) hperm (fun b _ x hx => rfl)
      | @retResizeOk b p old new _ sl hc =>
        have hj : JobOK s.w.mem (K.snap t) (some (.resize p old new, some b)) (.resize p old new) [b] := by
          revert hundec ht
          generalize s.pcs t = pc
          generalize B t = bt
          intro hundec ht
          cases ht with
          | load _ hj | cas _ hj | unlockSlow hj | wr hj | slow hj => cases hj; exact .resize ‹_› ‹_› ‹_›
          | rload _ hj | rcas _ hj => cases hj; exact .resize ‹_› ‹_› ‹_›
          | rdResize hj | copy hj => exact hj
          | retResizeOk => cases hundec
          | retResizeErr => cases hundec
        have hbm : b ∈ σ.owned := hperm.mem_iff.mpr (by simp)
        have he : (σ.owned.erase b).Perm (M.owned ++ R) := by
          have h1 : σ.owned.Perm (b :: (M.owned ++ R)) := hperm.trans List.perm_middle
          have h2 := h1.erase b
          rwa [List.erase_cons_head] at h2
        have hf : FreshFor (σ.owned.erase b) new sl := .of hi' hbt' fun b1 hb1 =>
          hap _ (by rw [hbt']; exact List.mem_cons_self) b1 (he.mem_iff.mp hb1)
        cases hj with
        | resize hfit hv hsn =>
          obtain ⟨f1, f2, f3, f4⟩ := hfit
          refine done rfl rfl (.resize hbm ⟨f1, f2, f3, f4⟩ hf (fun b1 hb1 => hkeep b1 (List.mem_of_mem_erase hb1)) fun i hi => ?_) ?_
            (fun b _ x hx => rfl)
          · have hx : b.Has (p + i) := ⟨by omega, by omega⟩
            rw [hc i (by omega), ← h.mem b hbm _ hx, hsn _ hx]
          · exact (he.cons _).trans List.perm_middle.symm
      | retResizeErr hj => exact done rfl rfl (.refused rfl hkeep) hperm (fun b _ x hx => rfl)
      | @retDealloc b p n =>
        have hfit : b.addr = p ∧ b.size ≤ n ∧ n ≤ b.len := by
          revert hundec ht
          generalize s.pcs t = pc
          generalize B t = bt
          intro hundec ht
          cases ht with
          | load _ hj | cas _ hj | unlockSlow hj | wr hj | slow hj => cases hj
          | rload _ hj | rcas _ hj => cases hj
          | rdDealloc hf => exact hf
          | free _ hf => exact hf
          | retDealloc => cases hundec
        have hbm : b ∈ σ.owned := hperm.mem_iff.mpr (by simp)
        have he : (σ.owned.erase b).Perm (M.owned ++ R) := by
          have h1 : σ.owned.Perm (b :: (M.owned ++ R)) := hperm.trans List.perm_middle
          have h2 := h1.erase b
          rwa [List.erase_cons_head] at h2
        exact done rfl rfl (.deallocate hbm hfit fun b1 hb1 => hkeep b1 (List.mem_of_mem_erase hb1)) he (fun b _ x hx => rfl)

theorem AbsSim.go {s0 s cs K B M σ T} (hi : SInv s0 s cs K B) (hM : Book.Part M K) (h : AbsSim s M σ T) {t : Nat} {ch : Choice} {s'}
    (hgo : goStep s t ch = .ok (some (none, s'))) {cs' B'} (hi' : SInv s0 s' cs' K B') {σ0 tr} (hr : LinRun σ0 tr σ T) :
    ∃ σ' T', LinRun σ0 (tr ++ [(.go t ch, none)]) σ' T' ∧ AbsSim s' M σ' T' := by
  rcases h.inside hi hM hgo hi' with h1 | ⟨c, r, σ', h1, h2, h3⟩
  · exact ⟨σ, T, hr.inside, h1⟩
  · exact ⟨σ', _, (hr.acts h1 h2).inside, h3⟩

/-- A step that returns from a call. -/
theorem AbsSim.ret {s0 s cs K B M σ T} (hi : SInv s0 s cs K B) (h : AbsSim s M σ T) {t : Nat} {ch : Choice} {r s'}
    (hgo : goStep s t ch = .ok (some (some r, s'))) {c ob} (hb : M.busy t = some (c, ob)) :
    T t = .done r ∧ AbsSim s' { M with owned := gets c ob r ++ M.owned, busy := put M.busy t none } σ (put T t .idle) := by
  obtain ⟨hw, _, wr, hpc⟩ := hi.goRet hgo
  have hother : ∀ u, u ≠ t → s'.pcs u = s.pcs u := fun u hu => hi.goOther hgo hu
  obtain ⟨R, hperm, hRfrom, hback⟩ := h.own.focus t
  refine ⟨by rw [h.thr t, hpc, hb]; rfl, ⟨fun u => ?_, hback (fun u hu => ?_) ?_, fun b hb x hx => ?_⟩⟩
  · by_cases hu : u = t
    · subst hu; dsimp only; rw [put_same, put_same]; cases s'.pcs u <;> rfl
    · dsimp only; rw [put_ne _ _ hu, put_ne _ _ hu, hother u hu, h.thr u]
  · dsimp only; rw [put_ne _ _ hu, hother u hu]
  · dsimp only
    rw [hpc, hb] at hperm
    rw [put_same, show (s'.pcs t).pend none = [] by cases s'.pcs t <;> rfl, List.nil_append]
    refine hperm.trans ?_
    rw [← List.append_assoc]
    exact List.perm_append_comm.append_right R
  · rw [hw]; exact h.mem b hb x hx

/-- A thread enters a call. -/
theorem AbsSim.call {s M σ T} (h : AbsSim s M σ T) {t : Nat} {c : Call} {ob : Option Owned} {L : List Owned}
    {sn} (hb : M.busy t = none) (hL : M.owned.Perm (ob.toList ++ L)) :
    T t = .idle ∧ AbsSim (s.setPc t (.rd c)) { owned := L, busy := put M.busy t (some (c, ob)), snap := sn } σ (put T t (.called c)) := by
  have hnil : (s.pcs t).pend none = [] := by cases s.pcs t <;> rfl
  obtain ⟨R, hperm, hRfrom, hback⟩ := h.own.focus t
  refine ⟨by rw [h.thr t, hb]; cases s.pcs t <;> rfl, ⟨fun u => ?_, hback (fun u hu => ?_) ?_, h.mem⟩⟩
  · by_cases hu : u = t
    · subst hu; dsimp only; rw [put_same, put_same, SS.setPc_same]; rfl
    · dsimp only; rw [put_ne _ _ hu, put_ne _ _ hu, SS.setPc_ne _ _ hu, h.thr u]
  · dsimp only; rw [put_ne _ _ hu, SS.setPc_ne _ _ hu]
  · dsimp only
    rw [hb, hnil] at hperm
    rw [put_same, SS.setPc_same]
    refine hperm.trans ((hL.append_right R).trans ?_)
    show (ob.toList ++ L ++ R).Perm (L ++ (ob.toList ++ R))
    rw [← List.append_assoc]
    exact List.perm_append_comm.append_right R

theorem AbsSim.reset {s K σ T} {s' : SS} (h : AbsSim s K σ T) (hq : ∀ t, K.busy t = none) {a : Act} (ha : a.resets = true) {σ0 tr} (hr : LinRun σ0 tr σ T) :
    ∃ σ' T', LinRun σ0 (tr ++ [(a, none)]) σ' T' ∧ AbsSim s' { K with owned := [] } σ' T' := by
  have hi : ∀ t, T t = .idle := by
    intro t
    rw [h.thr t, hq t]
    cases s.pcs t <;> rfl
  refine ⟨⟨[], s'.w.mem⟩, T, hr.reset ha hi .reset, ⟨fun t => ?_, ⟨[], .nil, fun u _ => ?_, .refl _⟩, fun b hb => by cases hb⟩⟩
  · rw [hi t]
    dsimp only
    rw [hq t]
    cases s'.pcs t <;> rfl
  · dsimp only
    rw [hq u]
    cases s'.pcs u <;> rfl

/-- A step of a user whose book is `M`. -/
theorem AbsSim.mine {s0 s cs K B M σ T} (hi : SInv s0 s cs K B) (hM : Book.Part M K) (hsim : AbsSim s M σ T) {a r s' M' K' cs' B'} (hl : SLegal M a)
    (hs : sstep s a = .ok (some (r, s'))) (ha : SAfter s.w.mem M a r M') (hK : SAfter s.w.mem K a r K') (hi' : SInv s0 s' cs' K' B')
    {σ0 tr} (hr : LinRun σ0 tr σ T) : ∃ σ' T', LinRun σ0 (tr ++ [(a, r)]) σ' T' ∧ AbsSim s' M' σ' T' := by
  have called : ∀ {t c}, sstep s (.call t c) = .ok (some (r, s')) → s' = s.setPc t (.rd c) := by
    intro t c hc
    simp only [sstep] at hc
    split at hc
    · cases hc
      rfl
    · cases hc
  cases ha with
  | allocate =>
    cases hl with
    | allocate hb hv =>
      rw [called hs]
      obtain ⟨h1, h2⟩ := hsim.call (ob := none) hb (List.Perm.refl M.owned)
      exact ⟨σ, _, hr.call h1, h2⟩
  | resize ho hf =>
    cases hl with
    | resize hb =>
      rw [called hs]
      obtain ⟨h1, h2⟩ := hsim.call (ob := some _) hb (List.perm_cons_erase ho)
      exact ⟨σ, _, hr.call h1, h2⟩
  | deallocate ho hf =>
    cases hl with
    | deallocate hb =>
      rw [called hs]
      obtain ⟨h1, h2⟩ := hsim.call (ob := some _) hb (List.perm_cons_erase ho)
      exact ⟨σ, _, hr.call h1, h2⟩
  | inside =>
    cases hK
    exact hsim.go hi hM hs hi' hr
  | ret hb =>
    obtain ⟨h1, h2⟩ := hsim.ret hi hs hb
    exact ⟨σ, _, hr.ret h1, h2⟩
  | @write x v =>
    cases hs
    cases hl with
    | @write b _ _ ho hx =>
      have hm : b ∈ σ.owned := by
        obtain ⟨ts, _, _, hL⟩ := hsim.own
        exact hL.mem_iff.mpr (List.mem_append_left _ ho)
      refine ⟨⟨σ.owned, setBytes s.w.mem x 1 fun _ => v⟩, T, hr.write (.write hm hx ?_ fun c hc y hy hne => ?_), ⟨hsim.thr, hsim.own, fun _ _ _ _ => rfl⟩⟩
      · exact setBytes_in (m := s.w.mem) (a := x) (n := 1) (f := fun _ => v) (i := 0) (by omega)
      · rw [setBytes_out (by omega)]
        exact hsim.mem c hc y hy
  | reset =>
    cases hl with
    | reset hq => exact hsim.reset hq rfl hr
  | resetUnchecked =>
    cases hl with
    | resetUnchecked hq => exact hsim.reset hq rfl hr
  | resetFinal =>
    cases hl with
    | resetFinal hq => exact hsim.reset hq rfl hr

/-- Every history of threads. -/
theorem SRun.abs {s0 tr s K} (h0 : SStart s0) (h : SRun s0 Book.empty tr s K) :
    ∃ σ T, LinRun ⟨[], s0.w.mem⟩ tr σ T ∧ AbsSim s K σ T := by
  induction h with
  | nil => exact ⟨_, _, .nil, .start⟩
  | @snoc tr s K a r s' K' h hl hs ha ih =>
    obtain ⟨σ, T, hr, hsim⟩ := ih
    obtain ⟨cs, B, hi⟩ := h.inv h0
    obtain ⟨cs', B', hi'⟩ := (h.snoc hl hs ha).inv h0
    exact hsim.mine hi (.refl K) hl hs ha ha hi' hr

end Blink
