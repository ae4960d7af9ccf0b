import Verif.Proofs.Sync
/-
  Every step of every thread keeps the invariant of the multi-threaded system.
-/
namespace Blink

theorem SS.setPc_same (s : SS) (t : Nat) (pc : Pc) : (s.setPc t pc).pcs t = pc := if_pos rfl
theorem SS.setPc_ne (s : SS) {t u : Nat} (pc : Pc) (h : u ≠ t) : (s.setPc t pc).pcs u = s.pcs u := if_neg h

theorem JobOK.valid {m sn bz j B} (h : JobOK m sn bz j B) : j.layout.Valid := by
  cases h with
  | alloc h => exact h
  | resize hf h hs => exact h

theorem SInv.cons {s0 s cs K B} (h : SInv s0 s cs K B) (hr : s.root ≠ 0) : ∃ c t, cs = c :: t ∧ s.root = c.start := by
  cases cs with
  | nil => rw [h.root] at hr; exact absurd rfl hr
  | cons c t => exact ⟨c, t, rfl, h.root⟩

/-- Bytes of blocks listed in a well placed list are in use. -/
theorem LOK.mem_byte {cs L} (h : LOK cs L) : ∀ b ∈ L, ∀ x, b.Has x → InUsed cs x 1 := fun _ hb _ hx => h.byte hb hx

/-- Steps of `t` that write no byte in use and do not end the call. -/
theorem SInv.move {s0 s cs K B} (h : SInv s0 s cs K B) (t : Nat) (ch : Choice) {s' : SS} {cs' : List Chunk} {bt : List Owned}
    (hgo : goStep s t ch = .ok (some (none, s')))
    (hE : Eff s0.w.held s.w cs s'.w cs') (hroot : s'.root = rootOf cs') (hmin : s'.minChunk = s.minChunk)
    (hseen : ∀ c t, cs' = c :: t → ∀ v ∈ s'.seen, v ≤ c.cursor)
    (hpcs : ∀ u, u ≠ t → s'.pcs u = s.pcs u)
    (hL : ∀ R, LOK cs (K.owned ++ (B t ++ R)) → LOK cs' (K.owned ++ (bt ++ R)))
    (hrt : s'.root = s.root ∨ ∀ u, u ≠ t → (s.pcs u).holdsR = false)
    (hlock : LockOK s'.readers s'.writer s'.pcs)
    (htok : TOK s'.w.mem s'.root (K.snap t) (K.busy t) (s'.pcs t) bt) :
    ∃ r s' cs', goStep s t ch = .ok (some (r, s')) ∧ (∀ b ∈ K.owned, ∀ x, b.Has x → s'.w.mem x = s.w.mem x) ∧
      ∀ K', SAfter s.w.mem K (.go t ch) r K' → ∃ B', SInv s0 s' cs' K' B' := by
  obtain ⟨R, hR, hRB, hF⟩ := h.fam.focus t
  refine ⟨none, s', cs', hgo, fun b hb x hx => hE.frame x (hR.byte (List.mem_append_left _ hb) hx), ?_⟩
  intro K' hK
  cases hK
  exact ⟨_, h.upd t hR hRB hF hE.inv hroot hmin hE.consts (hE.log h.log) hseen hpcs (fun _ _ => rfl) (fun _ _ => rfl)
    (hL R hR) (fun b hb x hx => hE.frame x (hR.byte (List.mem_append_right _ (List.mem_append_right _ hb)) hx))
    hrt hlock htok⟩

theorem loadRelaxed_spec {w c cs F} (h : AInv w (c :: cs) F) (seen : List Nat) (ch : Choice) :
    loadRelaxed c.start seen ch w = .ok ((c.cursor :: seen).getD ch.idx c.cursor, w) := by
  unfold loadRelaxed
  rw [bind_ok h.loadCursor]; rfl

/-- Going on after a fresh block `s` was obtained. -/
theorem gotBlock_spec {cs owned R} {m m' sn : Nat → Byte} {bz j Bj} {s : Slice} (wr : Bool) (w : World)
    (hj : JobOK m sn bz j Bj) (hL : LOK cs (owned ++ (Bj ++ R))) (hlen : j.layout.size ≤ s.len)
    (hd : ∀ p n, InUsed cs p n → p + n ≤ s.addr ∨ s.addr + s.len ≤ p)
    (hm : ∀ x, InUsed cs x 1 → m' x = m x) :
    ∃ pc, gotBlock wr j s w = .ok (pc, w) ∧ pc.holdsR = !wr ∧ pc.holdsW = wr ∧
      ∀ root, TOK m' root sn bz pc (Owned.of s j.layout :: Bj) := by
  cases hj with
  | alloc h => exact ⟨_, rfl, rfl, rfl, fun _ => .retAllocOk⟩
  | @resize b p old new hf h hs =>
    have hb : b ∈ owned ++ ([b] ++ R) := List.mem_append_right _ (List.mem_append_left _ List.mem_cons_self)
    obtain ⟨f1, f2, f3, f4⟩ := hf
    refine ⟨.copy wr p old new s 0, ?_, rfl, rfl, fun root => ?_⟩
    · unfold gotBlock
      dsimp only
      rw [bind_ok (require_ok ?_)]
      · rfl
      · have := hd _ _ (hL.each b hb).2.2.2
        simp only [Job.layout] at hlen
        omega
    · refine .copy (.resize ⟨f1, f2, f3, f4⟩ h fun x hx => ?_) (Nat.zero_le _) (fun i hi => absurd hi (Nat.not_lt_zero _))
      rw [hm x (hL.byte hb hx), hs x hx]

/-- The lists of blocks after a fresh block joined the thread's blocks. -/
theorem LOK.add_thread {cs cs' owned Bj R} {s : Slice} {l : Layout} (hL : LOK cs (owned ++ (Bj ++ R))) (hl : l.Valid)
    (hlen : l.size ≤ s.len) (hal : s.addr % l.align = 0) (hu : InUsed cs' s.addr s.len)
    (hm : ∀ p n, InUsed cs p n → InUsed cs' p n)
    (hd : ∀ p n, InUsed cs p n → p + n ≤ s.addr ∨ s.addr + s.len ≤ p) :
    LOK cs' (owned ++ ((Owned.of s l :: Bj) ++ R)) :=
  (hL.add hl hlen hal hu hm hd).perm (by rw [List.cons_append]; exact List.perm_middle.symm)

theorem SInv.go {s0 s cs K B} (h : SInv s0 s cs K B) (t : Nat) (ch : Choice) :
    (∃ e, BadAnswer s.w e ∧ goStep s t ch = .error e) ∨ goStep s t ch = .ok none ∨
    ∃ r s' cs', goStep s t ch = .ok (some (r, s')) ∧ (∀ b ∈ K.owned, ∀ x, b.Has x → s'.w.mem x = s.w.mem x) ∧
      ∀ K', SAfter s.w.mem K (.go t ch) r K' → ∃ B', SInv s0 s' cs' K' B' := by
  have ht := h.thr t
  have hpcs : ∀ (s1 : SS), s1.pcs = s.pcs → ∀ pc, ∀ u, u ≠ t → (s1.setPc t pc).pcs u = s.pcs u := by
    intro s1 h1 pc u hu
    rw [SS.setPc_ne _ _ hu, h1]
  generalize hpc : s.pcs t = pc at ht
  generalize hbz : K.busy t = bz at ht
  generalize hB : B t = Bt at ht
  -- steps that only move the program counter, keeping the lock
  have stay : ∀ {pc' : Pc}, goStep s t ch = .ok (some (none, s.setPc t pc')) → pc'.holdsR = pc.holdsR →
      pc'.holdsW = pc.holdsW → TOK s.w.mem s.root (K.snap t) bz pc' Bt → 
      ∃ r s' cs', goStep s t ch = .ok (some (r, s')) ∧ (∀ b ∈ K.owned, ∀ x, b.Has x → s'.w.mem x = s.w.mem x) ∧
      ∀ K', SAfter s.w.mem K (.go t ch) r K' → ∃ B', SInv s0 s' cs' K' B' := by
    intro pc' hgo hr hw htok
    refine h.move t ch hgo (Eff.refl h.arena) h.root rfl h.seen (hpcs _ rfl _) (bt := Bt) (fun R hR => hB ▸ hR) (.inl rfl)
      (h.lock.same (t := t) (hpcs _ rfl _) ?_ ?_) ?_
    · rw [SS.setPc_same, hpc]; exact hr
    · rw [SS.setPc_same, hpc]; exact hw
    · rw [SS.setPc_same, hbz]; exact htok
  -- taking the read lock
  have acq : ∀ (c : Call), pc = .rd c → pc.holdsR = false → (enter s.root c).holdsR = true → (enter s.root c).holdsW = false →
      ∀ {bt : List Owned}, TOK s.w.mem s.root (K.snap t) bz (enter s.root c) bt →
      (bt = Bt ∨ ∃ p old new b, JobOK s.w.mem (K.snap t) (some (.resize p old new, some b)) (.resize p old new) [b] ∧
        Bt = [b] ∧ bt = [Owned.of ⟨p, old.size⟩ new] ∧ new.align ≤ old.align ∧ new.size ≤ old.size) →
      (∃ e, BadAnswer s.w e ∧ goStep s t ch = .error e) ∨ goStep s t ch = .ok none ∨
      ∃ r s' cs', goStep s t ch = .ok (some (r, s')) ∧ (∀ b ∈ K.owned, ∀ x, b.Has x → s'.w.mem x = s.w.mem x) ∧
      ∀ K', SAfter s.w.mem K (.go t ch) r K' → ∃ B', SInv s0 s' cs' K' B' := by
    intro c hc h0 hr hw bt htok hbt
    subst hc
    by_cases hwn : s.writer = none
    · right; right
      have hgo : goStep s t ch = .ok (some (none, { s with readers := t :: s.readers }.setPc t (enter s.root c))) := by
        unfold goStep; rw [hpc]; dsimp only; rw [if_pos hwn]; rfl
      refine h.move t ch hgo (Eff.refl h.arena) h.root rfl h.seen (hpcs _ rfl _) (bt := bt) ?_ (.inl rfl)
        (h.lock.acqR (t := t) (hpcs _ rfl _) hwn ?_ ?_ ?_) ?_
      · intro R hR
        rw [hB] at hR
        rcases hbt with rfl | ⟨p, old, new, b, j, rfl, rfl, ha, hs⟩
        · exact hR
        · cases j with
          | resize hf hv hsame =>
            have hb : b ∈ K.owned ++ ([b] ++ R) := List.mem_append_right _ (List.mem_append_left _ List.mem_cons_self)
            have h1 := (hR.perm (show (K.owned ++ ([b] ++ R)).Perm (b :: (K.owned ++ R)) from List.perm_middle)).resize
              (m := 0) h.arena hv List.mem_cons_self hf (.same ha hs)
            rw [List.erase_cons_head] at h1
            exact h1.perm List.perm_middle.symm
      · rw [hpc]; rfl
      · rw [SS.setPc_same]; exact hr
      · rw [SS.setPc_same]; exact hw
      · rw [SS.setPc_same, hbz]; exact htok
    · right; left
      unfold goStep; rw [hpc]; dsimp only; rw [if_neg hwn]; rfl
  -- returning
  have fin : ∀ (wr : Bool) (r : Resp) (c : Call) (ob : Option Owned), pc = .ret wr r → bz = some (c, ob) → Bt = gets c ob r →
      ∃ r s' cs', goStep s t ch = .ok (some (r, s')) ∧ (∀ b ∈ K.owned, ∀ x, b.Has x → s'.w.mem x = s.w.mem x) ∧
      ∀ K', SAfter s.w.mem K (.go t ch) r K' → ∃ B', SInv s0 s' cs' K' B' := by
    intro wr r c ob h1 h2 h3
    subst h1 h2 h3
    obtain ⟨R, hR, hRB, hF⟩ := h.fam.focus t
    rw [hB] at hR
    have hgo : ∃ s', goStep s t ch = .ok (some (some r, s')) ∧ s'.w = s.w ∧ s'.root = s.root ∧ s'.minChunk = s.minChunk ∧
        s'.seen = s.seen ∧ s'.pcs = (s.setPc t .idle).pcs ∧ LockOK s'.readers s'.writer s'.pcs := by
      cases wr with
      | true =>
        refine ⟨{ s with writer := none }.setPc t .idle, by unfold goStep; rw [hpc]; rfl, rfl, rfl, rfl, rfl, rfl,
          h.lock.relW (t := t) (hpcs _ rfl _) ?_ ?_ ?_⟩
        · rw [hpc]; rfl
        · rw [SS.setPc_same]; rfl
        · rw [SS.setPc_same]; rfl
      | false =>
        refine ⟨{ s with readers := s.readers.erase t }.setPc t .idle, by unfold goStep; rw [hpc]; rfl, rfl, rfl, rfl, rfl,
          rfl, h.lock.relR (t := t) (hpcs _ rfl _) ?_ ?_ ?_⟩
        · rw [hpc]; rfl
        · rw [SS.setPc_same]; rfl
        · rw [SS.setPc_same]; rfl
    obtain ⟨s', hgo, g1, g2, g3, g4, g5, g6⟩ := hgo
    refine ⟨_, s', cs, hgo, fun b hb x hx => by rw [g1], ?_⟩
    intro K' hK
    cases hK with
    | ret hb =>
      rw [hbz] at hb
      injection hb with hb
      injection hb with hb1 hb2
      subst hb1 hb2
      refine ⟨_, h.upd t (by rw [hB]; exact hR) hRB hF (cs' := cs) (bt := []) (by rw [g1]; exact h.arena) (g2.trans h.root) g3
        (by rw [g1]; exact ⟨rfl, rfl, rfl⟩) (by rw [g1]; exact h.log) (by rw [g4]; exact h.seen)
        (fun u hu => by rw [g5]; exact hpcs s rfl .idle u hu) (fun u hu => put_ne _ _ hu) (fun _ _ => rfl) ?_ ?_ (.inl g2) g6 ?_⟩
      · refine hR.perm ?_
        dsimp only
        rw [← List.append_assoc]
        exact List.Perm.append_right _ List.perm_append_comm
      · intro b hb x hx; rw [g1]
      · rw [g5, SS.setPc_same]; dsimp only; rw [put_same]; exact .idle
  cases ht with
  | idle => right; left; unfold goStep; rw [hpc]; rfl
  | @rdAlloc l hl =>
    apply acq _ rfl rfl
    · unfold enter; dsimp only; split <;> rfl
    · unfold enter; dsimp only; split <;> rfl
    · unfold enter; dsimp only
      split
      · exact .unlockSlow (.alloc hl)
      · exact .load ‹_› (.alloc hl)
    · exact .inl rfl
  | @rdResize b p old new j =>
    obtain ⟨R, hR, -, -⟩ := h.fam.focus t
    rw [hB] at hR
    have hb : b ∈ K.owned ++ ([b] ++ R) := List.mem_append_right _ (List.mem_append_left _ List.mem_cons_self)
    by_cases hr : s.root = 0
    · have he : enter s.root (.resize p old new) = .unlockSlow (.resize p old new) := by unfold enter; dsimp only; rw [if_pos hr]
      refine acq _ rfl rfl ?_ ?_ (bt := [b]) ?_ (.inl rfl) <;> rw [he]
      · rfl
      · rfl
      · exact .unlockSlow j
    by_cases ha : new.align ≤ old.align
    · by_cases hs : new.size ≤ old.size
      · have he : enter s.root (.resize p old new) = .ret false (.block ⟨p, old.size⟩) := by
          unfold enter; dsimp only; rw [if_neg hr]; rw [if_pos ha, if_pos hs]
        refine acq _ rfl rfl ?_ ?_ (bt := [Owned.of ⟨p, old.size⟩ new]) ?_ (.inr ⟨p, old, new, b, j, rfl, rfl, ha, hs⟩) <;> rw [he]
        · rfl
        · rfl
        · cases j with
          | resize hf hv hsame =>
            refine .retResizeOk fun i hi => hsame (p + i) ?_
            obtain ⟨f1, f2, f3, f4⟩ := hf
            exact ⟨by omega, by omega⟩
      · have he : enter s.root (.resize p old new) = .rload s.root p old new := by
          unfold enter; dsimp only; rw [if_neg hr]; rw [if_pos ha, if_neg hs]
        refine acq _ rfl rfl ?_ ?_ (bt := [b]) ?_ (.inl rfl) <;> rw [he]
        · rfl
        · rfl
        · exact .rload hr j ha (by omega)
    · have he : enter s.root (.resize p old new) = .load s.root (.resize p old new) := by
        unfold enter; dsimp only; rw [if_neg hr]; rw [if_neg ha]
      refine acq _ rfl rfl ?_ ?_ (bt := [b]) ?_ (.inl rfl) <;> rw [he]
      · rfl
      · rfl
      · exact .load hr j
  | @rdDealloc b p n hf =>
    by_cases hr : s.root = 0
    · have he : enter s.root (.deallocate p n) = .ret false .unit := by unfold enter; dsimp only; rw [if_pos hr]
      have hcs : cs = [] := (rootOf_eq_zero h.arena.ok).mp (h.root ▸ hr)
      obtain ⟨R, hR, -, -⟩ := h.fam.focus t
      rw [hB] at hR
      obtain ⟨_, _, _, d, hd, _⟩ := hR.each b (List.mem_append_right _ (List.mem_append_left _ List.mem_cons_self))
      rw [hcs] at hd; cases hd
    · have he : enter s.root (.deallocate p n) = .free s.root p n := by unfold enter; dsimp only; rw [if_neg hr]
      refine acq _ rfl rfl ?_ ?_ (bt := [b]) ?_ (.inl rfl) <;> rw [he]
      · rfl
      · rfl
      · exact .free hr hf
  | load hr hj =>
    obtain ⟨c, tl, rfl, hc⟩ := h.cons hr
    right; right
    refine stay (pc' := .cas s.root _ ((c.cursor :: s.seen).getD ch.idx c.cursor)) ?_ rfl rfl (.cas hr hj)
    unfold goStep
    rw [hpc]
    dsimp only
    rw [ebind_ok (by rw [hc]; exact loadRelaxed_spec h.arena _ _)]
    rfl
  | @cas _ j _ cursor hr hj =>
    obtain ⟨c, tl, rfl, hc⟩ := h.cons hr
    right; right
    have hl := hj.valid
    have hgo : goStep s t ch = (match (bump cursor c.end_ j.layout).map (fun a => (a, a + j.layout.size)) with
      | none => pure (some (none, s.setPc t (.unlockSlow j)))
      | some (aligned, next) => 
        if c.cursor = cursor ∧ ch.spurious = false then do
          let ((), w) ← storeWord s.root next s.w
          let (len, w) ← subU next aligned w
          let ((), w) ← dassert (j.layout.size ≤ len) "len >= layout.size()" w
          let ((), w) ← dassert (aligned % j.layout.align = 0) "aligned_addr % layout.align() == 0" w
          let (pc, w) ← gotBlock false j ⟨aligned, len⟩ w
          pure (some (none, { s with w := w, seen := cursor :: s.seen }.setPc t pc))
        else pure (some (none, s.setPc t (.cas s.root j ((c.cursor :: s.seen).getD ch.idx c.cursor))))) := by
      unfold goStep
      rw [hpc]
      dsimp only
      rw [ebind_ok (by rw [hc]; exact h.arena.loadEnd)]
      dsimp only
      rw [ebind_ok (tryBump_spec hl)]
      dsimp only
      cases hb : bump cursor c.end_ j.layout with
      | none => rfl
      | some a =>
        simp only [Option.map_some]
        rw [ebind_ok (by rw [hc]; exact h.arena.loadCursor)]
        dsimp only
        split
        · rfl
        · rw [ebind_ok (by rw [hc]; exact loadRelaxed_spec h.arena _ _)]
    cases hb : bump cursor c.end_ j.layout with
    | none =>
      rw [hb] at hgo
      exact stay hgo rfl rfl (.unlockSlow hj)
    | some a =>
      rw [hb] at hgo
      simp only [Option.map_some] at hgo
      by_cases hcas : c.cursor = cursor ∧ ch.spurious = false
      · rw [if_pos hcas] at hgo
        obtain ⟨rfl, hsp⟩ := hcas
        have hbf := bump_facts hl hb
        have hcok := h.arena.ok c List.mem_cons_self
        have := hcok.al; have := hcok.lo; have := hcok.hi
        have hE := Eff.cursor h.arena (n := a + j.layout.size) (by omega) (by omega)
        have hfresh : ∀ p n, InUsed (c :: tl) p n → p + n ≤ a ∨ a + j.layout.size ≤ p := by
          rintro p n ⟨d, hd, h1, h2⟩
          rcases List.mem_cons.mp hd with rfl | hd
          · omega
          · have := h.arena.chunk_dis hd
            have hd' := h.arena.ok d (List.mem_cons_of_mem _ hd)
            have := hd'.lo; have := hd'.hi
            omega
        obtain ⟨R, hR, -, -⟩ := h.fam.focus t
        rw [hB] at hR
        obtain ⟨pc', hg, hg1, hg2, hg3⟩ := gotBlock_spec (s := ⟨a, j.layout.size⟩) false
          (setCursor s.w c (a + j.layout.size)) hj hR (Nat.le_refl _) hfresh hE.frame
        rw [ebind_ok (show storeWord s.root (a + j.layout.size) s.w = .ok ((), setCursor s.w c (a + j.layout.size)) from
          hc ▸ storeWord_ok (by omega) (h.arena.acc List.mem_cons_self (by omega) (by omega)))] at hgo
        dsimp only at hgo
        rw [ebind_ok (subU_ok (by omega))] at hgo
        dsimp only at hgo
        rw [ebind_ok (dassert_ok (by omega))] at hgo
        dsimp only at hgo
        rw [ebind_ok (dassert_ok (fun _ => hbf.2.2.1)), show a + j.layout.size - a = j.layout.size by omega] at hgo
        dsimp only at hgo
        rw [ebind_ok hg] at hgo
        refine h.move t ch hgo hE (h.root.trans rfl) rfl ?_ (hpcs _ rfl _) (bt := Owned.of ⟨a, j.layout.size⟩ j.layout :: Bt)
          ?_ (.inl rfl) (h.lock.same (t := t) (hpcs _ rfl _) ?_ ?_) ?_
        · rintro c' t' he v hv
          injection he with he1 he2
          subst he1
          rcases List.mem_cons.mp hv with rfl | hv
          · simp only; omega
          · have := h.seen c tl rfl v hv
            simp only; omega
        · intro R hR
          rw [hB] at hR
          exact hR.add_thread hl (Nat.le_refl _) hbf.2.2.1 ⟨_, List.mem_cons_self, by simp only; omega, Nat.le_refl _⟩ hE.mono hfresh
        · rw [SS.setPc_same, hpc]; exact hg1
        · rw [SS.setPc_same, hpc]; exact hg2
        · rw [SS.setPc_same, hbz]; exact hg3 _
      · rw [if_neg hcas] at hgo
        exact stay hgo rfl rfl (.cas hr hj)
  | @rload _ p old new _ hr hj ha hs =>
    obtain ⟨c, tl, rfl, hc⟩ := h.cons hr
    right; right
    obtain ⟨R, hR, -, -⟩ := h.fam.focus t
    rw [hB] at hR
    have hold : p + old.size < USIZE := by
      cases hj with
      | @resize b _ _ _ hf hv hsame =>
        obtain ⟨f1, f2, f3, f4⟩ := hf
        obtain ⟨_, _, _, d, hd, h1, h2⟩ := hR.each b (List.mem_append_right _ (List.mem_append_left _ List.mem_cons_self))
        have := h.arena.chunk_rng hd
        have := (h.arena.ok d hd).hi
        omega
    have hgo : goStep s t ch = (if (c.cursor :: s.seen).getD ch.idx c.cursor = p + old.size then
        pure (some (none, s.setPc t (.rcas s.root p old new ((c.cursor :: s.seen).getD ch.idx c.cursor))))
        else pure (some (none, s.setPc t (.load s.root (.resize p old new))))) := by
      unfold goStep
      rw [hpc]
      dsimp only
      rw [ebind_ok (addU_ok hold)]
      dsimp only
      rw [ebind_ok (by rw [hc]; exact loadRelaxed_spec h.arena _ _)]
    by_cases hv : (c.cursor :: s.seen).getD ch.idx c.cursor = p + old.size
    · rw [if_pos hv, hv] at hgo
      exact stay hgo rfl rfl (.rcas hr hj ha hs)
    · rw [if_neg hv] at hgo
      exact stay hgo rfl rfl (.load hr hj)
  | @rcas _ p old new _ hr hj ha hs =>
    obtain ⟨c, tl, rfl, hc⟩ := h.cons hr
    right; right
    cases hn : checkedAdd p new.size with
    | none =>
      refine stay (pc' := .unlockSlow (.resize p old new)) ?_ rfl rfl (.unlockSlow hj)
      unfold goStep; rw [hpc]; dsimp only; rw [hn]; rfl
    | some next =>
      have hnext : next = p + new.size := by
        unfold checkedAdd at hn; split at hn
        · injection hn with hn; exact hn.symm
        · cases hn
      subst hnext
      by_cases hfit : c.end_ < p + new.size
      · refine stay (pc' := .unlockSlow (.resize p old new)) ?_ rfl rfl (.unlockSlow hj)
        unfold goStep; rw [hpc]; dsimp only; rw [hn]; dsimp only
        rw [ebind_ok (by rw [hc]; exact h.arena.loadEnd)]; dsimp only; rw [if_pos hfit]; rfl
      · have hcas := cellCas_spec h.arena (p + old.size) (p + new.size)
        by_cases htip : p + old.size = c.cursor
        · rw [if_pos htip] at hcas
          have hgo : goStep s t ch = .ok (some (none, { s with w := setCursor s.w c (p + new.size), seen := (p + old.size) :: s.seen }.setPc t
              (.ret false (.block ⟨p, new.size⟩)))) := by
            unfold goStep; rw [hpc]; dsimp only; rw [hn]; dsimp only
            rw [ebind_ok (by rw [hc]; exact h.arena.loadEnd)]; dsimp only; rw [if_neg hfit]
            rw [ebind_ok (by rw [hc]; exact hcas)]; dsimp only
            rw [if_pos rfl, ebind_ok (subU_ok (by omega))]; dsimp only
            rw [ebind_ok (dassert_ok (by omega)), show p + new.size - p = new.size by omega]; rfl
          have hE := Eff.cursor h.arena (n := p + new.size) (by omega) (by omega)
          cases hj with
          | @resize b _ _ _ hf hv hsame =>
            refine h.move t ch hgo hE (h.root.trans rfl) rfl ?_ (hpcs _ rfl _) (bt := [Owned.of ⟨p, new.size⟩ new])
              ?_ (.inl rfl) (h.lock.same (t := t) (hpcs _ rfl _) ?_ ?_) ?_
            · rintro c' t' he v hv
              injection he with he1 he2
              subst he1
              rcases List.mem_cons.mp hv with rfl | hv
              · simp only; omega
              · have := h.seen c tl rfl v hv
                simp only; omega
            · intro R hR
              rw [hB] at hR
              have h1 := (hR.perm (show (K.owned ++ ([b] ++ R)).Perm (b :: (K.owned ++ R)) from List.perm_middle)).resize
                (m := 0) h.arena hv List.mem_cons_self hf (.grow c tl rfl ha hs htip.symm (by omega))
              rw [List.erase_cons_head] at h1
              exact h1.perm List.perm_middle.symm
            · rw [SS.setPc_same, hpc]; rfl
            · rw [SS.setPc_same, hpc]; rfl
            · rw [SS.setPc_same, hbz]
              obtain ⟨R, hR, -, -⟩ := h.fam.focus t
              rw [hB] at hR
              refine .retResizeOk fun i hi => ?_
              obtain ⟨f1, f2, f3, f4⟩ := hf
              have hbx : b.Has (p + i) := ⟨by omega, by omega⟩
              rw [← hsame _ hbx]
              exact hE.frame _ (hR.byte (List.mem_append_right _ (List.mem_append_left _ List.mem_cons_self)) hbx)
        · rw [if_neg htip] at hcas
          refine stay (pc' := .load s.root (.resize p old new)) ?_ rfl rfl (.load hr hj)
          unfold goStep; rw [hpc]; dsimp only; rw [hn]; dsimp only
          rw [ebind_ok (by rw [hc]; exact h.arena.loadEnd)]; dsimp only; rw [if_neg hfit]
          rw [ebind_ok (by rw [hc]; exact hcas)]; rfl
  | @free b p n hr hf =>
    obtain ⟨c, tl, rfl, hc⟩ := h.cons hr
    right; right
    obtain ⟨f1, f2, f3⟩ := hf
    obtain ⟨R, hR, -, -⟩ := h.fam.focus t
    rw [hB] at hR
    obtain ⟨_, _, _, d, hd, h1, h2⟩ := hR.each b (List.mem_append_right _ (List.mem_append_left _ List.mem_cons_self))
    have hd1 := h.arena.chunk_rng hd
    have hd2 := h.arena.ok d hd
    have := hd2.lo; have := hd2.hi
    have hc2 := h.arena.ok c List.mem_cons_self
    have := hc2.lo; have := hc2.hi
    have hcas := cellCas_spec h.arena p (p + n)
    have hgo : goStep s t ch = .ok (some (none, { s with seen := if p = c.cursor then p :: s.seen else s.seen }.setPc t (.ret false .unit))) := by
      unfold goStep; rw [hpc]; dsimp only
      rw [ebind_ok (addU_ok (by omega))]; dsimp only
      rw [ebind_ok (by rw [hc]; exact hcas)]
      by_cases htip : p = c.cursor
      · have hn0 : p + n = c.cursor := by
          rcases List.mem_cons.mp hd with rfl | hd
          · omega
          · have := h.arena.chunk_dis hd
            omega
        rw [if_pos htip, if_pos htip, hn0, setCursor_self h.arena]; rfl
      · rw [if_neg htip, if_neg htip]; rfl
    refine h.move t ch hgo (Eff.refl h.arena) h.root rfl ?_ (hpcs _ rfl _) (bt := [])
      ?_ (.inl rfl) (h.lock.same (t := t) (hpcs _ rfl _) ?_ ?_) ?_
    · rintro c' t' he v hv
      injection he with he1 he2
      subst he1
      simp only [SS.setPc] at hv
      split at hv
      · rcases List.mem_cons.mp hv with rfl | hv
        · omega
        · exact h.seen c tl rfl v hv
      · exact h.seen c tl rfl v hv
    · intro R hR
      rw [hB] at hR
      have h1 := (hR.perm (show (K.owned ++ ([b] ++ R)).Perm (b :: (K.owned ++ R)) from List.perm_middle)).erase b
      rw [List.erase_cons_head] at h1
      exact h1
    · rw [SS.setPc_same, hpc]; rfl
    · rw [SS.setPc_same, hpc]; rfl
    · rw [SS.setPc_same, hbz]; exact .retDealloc
  | @unlockSlow _ j _ hj =>
    right; right
    have hgo : goStep s t ch = .ok (some (none, { s with readers := s.readers.erase t }.setPc t (.wr j))) := by
      unfold goStep; rw [hpc]; rfl
    refine h.move t ch hgo (Eff.refl h.arena) h.root rfl h.seen (hpcs _ rfl _) (bt := Bt) (fun R hR => hB ▸ hR) (.inl rfl)
      (h.lock.relR (t := t) (hpcs _ rfl _) ?_ ?_ ?_) ?_
    · rw [hpc]; rfl
    · rw [SS.setPc_same]; rfl
    · rw [SS.setPc_same]; rfl
    · rw [SS.setPc_same, hbz]; exact .wr hj
  | @wr _ j _ hj =>
    by_cases hfree : s.writer = none ∧ s.readers = []
    · right; right
      have hgo : goStep s t ch = .ok (some (none, { s with writer := some t }.setPc t (.slow j))) := by
        unfold goStep; rw [hpc]; dsimp only; rw [if_pos hfree]; rfl
      refine h.move t ch hgo (Eff.refl h.arena) h.root rfl h.seen (hpcs _ rfl _) (bt := Bt) (fun R hR => hB ▸ hR) (.inl rfl)
        (h.lock.acqW (t := t) (hpcs _ rfl _) hfree.1 hfree.2 ?_ ?_) ?_
      · rw [SS.setPc_same]; rfl
      · rw [SS.setPc_same]; rfl
      · rw [SS.setPc_same, hbz]; exact .slow hj
    · right; left
      unfold goStep; rw [hpc]; dsimp only; rw [if_neg hfree]; rfl
  | @slow _ j _ hj =>
    have halone : ∀ u, u ≠ t → (s.pcs u).holdsR = false := fun u _ => h.lock.alone (t := t) (by rw [hpc]; rfl) u
    rcases allocSlow_spec h.arena hj.valid h.dbg with ⟨e, hbad, he⟩ | ⟨r, w', cs', he, hr, hi⟩
    · left
      refine ⟨e, hbad.1, ?_⟩
      unfold goStep; rw [hpc]; dsimp only
      rw [h.root, ebind_err he]
    · right; right
      have hE := hr.eff h.arena hi
      cases r with
      | none =>
        have hgo : goStep s t ch = .ok (some (none, { s with w := w', root := rootOf cs', seen := [] }.setPc t (.ret true .err))) := by
          unfold goStep; rw [hpc]; dsimp only
          rw [ebind_ok (by rw [h.root]; exact he)]; rfl
        refine h.move t ch hgo hE rfl rfl ?_ (hpcs _ rfl _) (bt := Bt) ?_ (.inr halone)
          (h.lock.same (t := t) (hpcs _ rfl _) ?_ ?_) ?_
        · intro c t' _ v hv; cases hv
        · intro R hR; rw [hB] at hR; exact hR.mono hE.mono
        · rw [SS.setPc_same, hpc]; rfl
        · rw [SS.setPc_same, hpc]; rfl
        · rw [SS.setPc_same, hbz]
          obtain ⟨R, hR, -, -⟩ := h.fam.focus t
          rw [hB] at hR
          cases hj with
          | alloc hv => exact .retAllocErr
          | @resize b p old new hf hv hsame =>
            refine .retResizeErr (.resize hf hv fun x hx => ?_)
            rw [← hsame x hx]
            exact hE.frame _ (hR.byte (List.mem_append_right _ (List.mem_append_left _ List.mem_cons_self)) hx)
      | some b =>
        obtain ⟨f1, f2, ⟨c, tl, f3, f4, f5, f6, f7⟩, f8⟩ := hr.fresh h.arena hj.valid
        obtain ⟨R, hR, -, -⟩ := h.fam.focus t
        rw [hB] at hR
        obtain ⟨pc', hg, hg1, hg2, hg3⟩ := gotBlock_spec (s := b) true w' hj hR (by omega) f8 hE.frame
        have hgo : goStep s t ch = .ok (some (none, { s with w := w', root := rootOf cs', seen := [] }.setPc t pc')) := by
          unfold goStep; rw [hpc]; dsimp only
          rw [ebind_ok (by rw [h.root]; exact he)]; dsimp only
          rw [ebind_ok hg]; rfl
        refine h.move t ch hgo hE rfl rfl ?_ (hpcs _ rfl _) (bt := Owned.of b j.layout :: Bt) ?_ (.inr halone)
          (h.lock.same (t := t) (hpcs _ rfl _) ?_ ?_) ?_
        · intro c t' _ v hv; cases hv
        · intro R hR
          rw [hB] at hR
          exact hR.add_thread hj.valid (by omega) f2 ⟨c, by rw [f3]; exact List.mem_cons_self, f4, by omega⟩ hE.mono f8
        · rw [SS.setPc_same, hpc]; exact hg1
        · rw [SS.setPc_same, hpc]; exact hg2
        · rw [SS.setPc_same, hbz]; exact hg3 _
  | @copy b p old new wr sl k j hk hc =>
    right; right
    obtain ⟨R, hR, hRB, hF⟩ := h.fam.focus t
    rw [hB] at hR
    have hnew : Owned.of sl new ∈ K.owned ++ ([Owned.of sl new, b] ++ R) :=
      List.mem_append_right _ (List.mem_append_left _ List.mem_cons_self)
    have hbm : b ∈ K.owned ++ ([Owned.of sl new, b] ++ R) :=
      List.mem_append_right _ (List.mem_append_left _ (List.mem_cons_of_mem _ List.mem_cons_self))
    have hnl := (hR.each _ hnew).1
    by_cases hlt : k < Nat.min new.size old.size
    · have hlt' := Nat.lt_min.mp hlt
      cases j with
      | resize hf hv hsame =>
        obtain ⟨f1, f2, f3, f4⟩ := hf
        have hbx : b.Has (p + k) := ⟨by omega, by omega⟩
        have hnx : (Owned.of sl new).Has (sl.addr + k) := by
          simp only [Owned.of] at hnl
          exact ⟨by simp only [Owned.of]; omega, by simp only [Owned.of]; omega⟩
        have hu1 := hR.byte hbm hbx
        have hu2 := hR.byte hnew hnx
        have hgo : goStep s t ch = .ok (some (none,
            { s with w := { s.w with mem := setBytes s.w.mem (sl.addr + k) 1 fun _ => s.w.mem (p + k) } }.setPc t
              (.copy wr p old new sl (k + 1)))) := by
          unfold goStep; rw [hpc]; dsimp only; rw [if_pos hlt]
          rw [ebind_ok (show copyByte (p + k) (sl.addr + k) s.w = _ from by
            unfold copyByte; rw [if_pos ⟨h.arena.acc_used hu1, h.arena.acc_used hu2⟩])]
          rfl
        have hout : ∀ d : Owned, d.Apart (Owned.of sl new) → ∀ x, d.Has x →
            setBytes s.w.mem (sl.addr + k) 1 (fun _ => s.w.mem (p + k)) x = s.w.mem x := by
          intro d hd x hx
          apply setBytes_out
          have : x ≠ sl.addr + k := fun he => hd x ⟨hx, he ▸ hnx⟩
          omega
        have hap := hR.apart
        rw [List.pairwise_append] at hap
        obtain ⟨_, hap2, hap3⟩ := hap
        rw [List.cons_append, List.pairwise_cons] at hap2
        refine ⟨_, _, cs, hgo, ?_, ?_⟩
        · intro d hd x hx
          exact hout d (hap3 d hd _ (List.mem_append_left _ List.mem_cons_self)) x hx
        · intro K' hK
          cases hK
          have hbo := hout b (hap2.1 b (List.mem_append_left _ List.mem_cons_self)).symm
          refine ⟨_, h.upd t (by rw [hB]; exact hR) hRB hF (cs' := cs) (bt := [Owned.of sl new, b])
            (h.arena.setUsed (.inr hu2)) h.root rfl ⟨rfl, rfl, rfl⟩ h.log
            h.seen (hpcs _ rfl _) (fun _ _ => rfl) (fun _ _ => rfl) hR ?_ (.inl rfl)
            (h.lock.same (t := t) (hpcs _ rfl _) ?_ ?_) ?_⟩
          · intro d hd
            exact hout d (hap2.1 d (List.mem_append_right _ hd)).symm
          · rw [SS.setPc_same, hpc]; rfl
          · rw [SS.setPc_same, hpc]; rfl
          · rw [SS.setPc_same, hbz]
            refine .copy (.resize ⟨f1, f2, f3, f4⟩ hv fun x hx => ?_) hlt fun i hi => ?_
            · exact (hbo x hx).trans (hsame x hx)
            · by_cases hik : i = k
              · subst hik
                rw [← hsame _ hbx]
                exact setBytes_in (m := s.w.mem) (f := fun _ => s.w.mem (p + i)) (a := sl.addr + i) (n := 1) (i := 0) Nat.one_pos
              · have hil : i < k := by omega
                rw [← hc i hil]
                exact setBytes_out (m := s.w.mem) (f := fun _ => s.w.mem (p + k)) (a := sl.addr + k) (n := 1) (x := sl.addr + i)
                  (by omega)
    · have hkk : k = Nat.min new.size old.size := Nat.le_antisymm hk (Nat.le_of_not_lt hlt)
      have hgo : goStep s t ch = .ok (some (none, s.setPc t (.ret wr (.block sl)))) := by
        unfold goStep; rw [hpc]; dsimp only; rw [if_neg hlt]; rfl
      refine h.move t ch hgo (Eff.refl h.arena) h.root rfl h.seen (hpcs _ rfl _) (bt := [Owned.of sl new]) ?_ (.inl rfl)
        (h.lock.same (t := t) (hpcs _ rfl _) ?_ ?_) ?_
      · intro R hR
        rw [hB] at hR
        have h1 := (hR.perm (show (K.owned ++ ([Owned.of sl new, b] ++ R)).Perm (b :: (K.owned ++ ([Owned.of sl new] ++ R))) from
          (List.perm_append_left_iff _).mpr (List.Perm.swap _ _ _) |>.trans List.perm_middle)).erase b
        rw [List.erase_cons_head] at h1
        exact h1
      · rw [SS.setPc_same, hpc]; rfl
      · rw [SS.setPc_same, hpc]; rfl
      · rw [SS.setPc_same, hbz]
        subst hkk
        exact .retResizeOk hc
  | @retAllocOk l wr sl => right; right; exact fin _ _ _ _ rfl rfl rfl
  | @retAllocErr l wr => right; right; exact fin _ _ _ _ rfl rfl rfl
  | @retResizeOk b p old new wr sl hc => right; right; exact fin _ _ _ _ rfl rfl rfl
  | @retResizeErr b p old new wr j => right; right; exact fin _ _ _ _ rfl rfl rfl
  | @retDealloc b p n wr => right; right; exact fin _ _ _ _ rfl rfl rfl

end Blink
