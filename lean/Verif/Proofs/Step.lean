import Verif.Proofs.Ledger
/-
  One API call, then whole histories.
-/
namespace Blink

/-- The call has to ask the underlying allocator for a chunk, and `e` is the fault in answering that request. -/
def NeedsChunk (cs : List Chunk) (m : Nat) (e : Fault) : Op → Prop
  | .allocate l => NoFit cs l ∧ ReqIs cs m l e
  | .allocateZeroed l => NoFit cs l ∧ ReqIs cs m l e
  | .resize p old new => NoFitResize cs p old new ∧ ReqIs cs m new e
  | .growZeroed _ _ new => NoFit cs new ∧ ReqIs cs m new e
  | _ => False

/-- What each call does, in terms of the chunk list. -/
def OpRes (w : World) (cs : List Chunk) (m : Nat) : Op → Resp → World → List Chunk → Prop
  | .allocate l, r, w', cs' => ∃ o, r = .ofOption o ∧ AllocRes w cs m l o w' cs'
  | .allocateZeroed l, r, w', cs' => ∃ o w1, r = .ofOption o ∧ AllocRes w cs m l o w1 cs' ∧
      match o with
      | none => w' = w1
      | some s => w' = { w1 with mem := setBytes w1.mem s.addr s.len (fun _ => .raw 0) }
  | .resize p old new, r, w', cs' => ∃ o, r = .ofOption o ∧ ResizeRes w cs m p old new o w' cs'
  | .growZeroed p old new, r, w', cs' => ∃ o w1, r = .ofOption o ∧ AllocRes w cs m new o w1 cs' ∧
      match o with
      | none => w' = w1
      | some s => w' = { w1 with mem := setBytes (setBytes w1.mem s.addr s.len (fun _ => .raw 0)) s.addr old.size
                                          (fun i => w1.mem (p + i)) }
  | .deallocate _ _, r, w', cs' => r = .unit ∧ w' = w ∧ cs' = cs
  | .reset, r, w', cs' => r = .unit ∧ w' = resetWorld w cs ∧ cs' = resetChunks cs
  | .resetFinal, r, w', cs' => r = .unit ∧ w' = freeAll w cs ∧ cs' = []
  | .write x v, r, w', cs' => r = .unit ∧ w' = { w with mem := setBytes w.mem x 1 (fun _ => v) } ∧ cs' = cs

theorem AllocRes.consts {w cs m l r w' cs'} (h : AllocRes w cs m l r w' cs') :
    w'.debug = w.debug ∧ w'.top = w.top ∧ w'.oracle = w.oracle := by
  cases h with
  | fast => exact ⟨rfl, rfl, rfl⟩
  | slow hb h => cases h <;> exact ⟨rfl, rfl, rfl⟩

theorem ResizeRes.consts {w cs m p old new r w' cs'} (h : ResizeRes w cs m p old new r w' cs') :
    w'.debug = w.debug ∧ w'.top = w.top ∧ w'.oracle = w.oracle := by
  cases h with
  | same => exact ⟨rfl, rfl, rfl⟩
  | grow => exact ⟨rfl, rfl, rfl⟩
  | move s w1 cs1 hn hgrow hr => exact hr.consts
  | fail w1 cs1 hn hgrow hr => exact hr.consts

theorem resetWorld_consts (w : World) (cs : List Chunk) : (resetWorld w cs).debug = w.debug ∧
    (resetWorld w cs).top = w.top ∧ (resetWorld w cs).oracle = w.oracle := by
  cases cs with
  | nil => exact ⟨rfl, rfl, rfl⟩
  | cons c cs =>
    have := freeAll_fields (rewound w c) cs
    exact ⟨this.2.2.2.1, this.2.2.1, this.1⟩

theorem OpRes.consts {w cs m op r w' cs'} (h : OpRes w cs m op r w' cs') :
    w'.debug = w.debug ∧ w'.top = w.top ∧ w'.oracle = w.oracle := by
  cases op with
  | allocate l => obtain ⟨o, _, h⟩ := h; exact h.consts
  | allocateZeroed l =>
    obtain ⟨o, w1, _, h, hw⟩ := h
    cases o with
    | none => subst hw; exact h.consts
    | some s => subst hw; exact h.consts
  | resize => obtain ⟨o, _, h⟩ := h; exact h.consts
  | growZeroed p old new =>
    obtain ⟨o, w1, _, h, hw⟩ := h
    cases o with
    | none => subst hw; exact h.consts
    | some s => subst hw; exact h.consts
  | deallocate => obtain ⟨_, rfl, _⟩ := h; exact ⟨rfl, rfl, rfl⟩
  | reset => obtain ⟨_, rfl, _⟩ := h; exact resetWorld_consts w cs
  | resetFinal =>
    obtain ⟨_, rfl, _⟩ := h
    have := freeAll_fields w cs
    exact ⟨this.2.2.2.1, this.2.2.1, this.1⟩
  | write => obtain ⟨_, rfl, _⟩ := h; exact ⟨rfl, rfl, rfl⟩

theorem DbgOK.of_eq {w w' : World} {m : Nat} (h : DbgOK w m) (h1 : w'.debug = w.debug) (h2 : w'.top = w.top) :
    DbgOK w' m := by
  unfold DbgOK; rw [h1, h2]; exact h

theorem allocateZeroed_spec {w cs F} {m : Nat} {l : Layout} (h : AInv w cs F) (hl : l.Valid) (hd : DbgOK w m) :
    (∃ e, (BadAnswer w e ∧ NoFit cs l ∧ ReqIs cs m l e) ∧ BA.allocateZeroed ⟨rootOf cs, m⟩ l w = .error e) ∨
    ∃ o w' cs' w1, BA.allocateZeroed ⟨rootOf cs, m⟩ l w = .ok ((o, ⟨rootOf cs', m⟩), w') ∧ AllocRes w cs m l o w1 cs' ∧
      AInv w1 cs' F ∧ AInv w' cs' F ∧
      match o with
      | none => w' = w1
      | some s => w' = { w1 with mem := setBytes w1.mem s.addr s.len (fun _ => .raw 0) } := by
  rcases allocate_spec h hl hd with ⟨e, hbad, he⟩ | ⟨o, w1, cs1, he, hr, hi⟩
  · exact .inl ⟨e, hbad, bind_err he⟩
  · right
    unfold BA.allocateZeroed
    cases o with
    | none => exact ⟨none, w1, cs1, w1, by rw [bind_ok he]; rfl, hr, hi, hi, rfl⟩
    | some s =>
      have hu := hr.new_used h hl
      refine ⟨some s, _, cs1, w1, ?_, hr, hi, ?_, rfl⟩
      · rw [bind_ok he]
        simp only
        have : writeZeros s.addr s.len w1 = .ok ((), { w1 with mem := setBytes w1.mem s.addr s.len (fun _ => .raw 0) }) := by
          unfold writeZeros
          rw [if_pos (.inr (hi.acc_used hu))]
        rw [bind_ok this]; rfl
      · exact hi.setUsed (.inr hu)

theorem growZeroed_spec {w cs F} {m p : Nat} {old new : Layout} (h : AInv w cs F) (hl : new.Valid) (hd : DbgOK w m)
    (hp : InUsed cs p old.size) (hs : old.size ≤ new.size) :
    (∃ e, (BadAnswer w e ∧ NoFit cs new ∧ ReqIs cs m new e) ∧ BA.growZeroed ⟨rootOf cs, m⟩ p old new w = .error e) ∨
    ∃ o w' cs' w1, BA.growZeroed ⟨rootOf cs, m⟩ p old new w = .ok ((o, ⟨rootOf cs', m⟩), w') ∧
      AllocRes w cs m new o w1 cs' ∧ AInv w' cs' F ∧
      match o with
      | none => w' = w1
      | some s => w' = { w1 with mem := setBytes (setBytes w1.mem s.addr s.len (fun _ => .raw 0)) s.addr old.size
                                          (fun i => w1.mem (p + i)) } := by
  unfold BA.growZeroed
  rw [bind_ok (dassert_ok (fun _ => hs))]
  rcases allocateZeroed_spec h hl hd with ⟨e, hbad, he⟩ | ⟨o, w', cs1, w1, he, hr, hi, hi', hw⟩
  · exact .inl ⟨e, hbad, bind_err he⟩
  · right
    cases o with
    | none => exact ⟨none, w', cs1, w1, by rw [bind_ok he]; rfl, hr, hi', hw⟩
    | some s =>
      have hu := hr.new_used h hl
      have hp' := hr.mono hl hp
      have hf := hr.fresh h hl
      have hdis := hf.2.2.2 _ _ hp
      have hlen := hf.1
      simp only at hw
      have hcp : copyNonoverlapping p s.addr old.size w' = .ok ((), { w' with
          mem := setBytes w'.mem s.addr old.size (fun i => w'.mem (p + i)) }) := by
        unfold copyNonoverlapping
        rw [if_pos]
        right
        exact ⟨hi'.acc_used hp', hi'.acc_used (hu.sub (Nat.le_refl _) (by omega)), by omega⟩
      have hi2 : AInv { w' with mem := setBytes w'.mem s.addr old.size (fun i => w'.mem (p + i)) } cs1 F :=
        hi'.setUsed (.inr (hu.sub (Nat.le_refl _) (by omega)))
      refine ⟨some s, _, cs1, w1, ?_, hr, hi2, ?_⟩
      · rw [bind_ok he]
        simp only
        rw [bind_ok hcp, bind_ok (deallocate_spec hi2 hp')]
        rfl
      · simp only
        subst hw
        simp only
        congr 1
        funext x
        unfold setBytes
        split
        · simp only
          rw [if_neg (by omega)]
        · rfl

theorem InUsed.of_fits {cs L} (hL : LOK cs L) {b : Owned} (hb : b ∈ L) {p : Nat} {l : Layout} (hf : b.Fits p l) :
    InUsed cs p l.size := by
  obtain ⟨f1, f2, f3, f4⟩ := hf
  exact ((hL.each b hb).2.2.2).sub (by omega) (by omega)

/-- One legal call: it never goes wrong, and keeps the invariant. -/
theorem step_spec {w cs F L} {m : Nat} {op : Op} (h : AInv w cs F) (hd : DbgOK w m) (hL : LOK cs L) (hleg : Legal L op) :
    (∃ e, (BadAnswer w e ∧ NeedsChunk cs m e op) ∧ step ⟨w, ⟨rootOf cs, m⟩⟩ op = .error e) ∨
    ∃ r w' cs', step ⟨w, ⟨rootOf cs, m⟩⟩ op = .ok (r, ⟨w', ⟨rootOf cs', m⟩⟩) ∧ OpRes w cs m op r w' cs' ∧
      AInv w' cs' F ∧ DbgOK w' m ∧ ∀ L', After L op r L' → LOK cs' L' := by
  have fin : ∀ {r w' cs'}, step ⟨w, ⟨rootOf cs, m⟩⟩ op = .ok (r, ⟨w', ⟨rootOf cs', m⟩⟩) → OpRes w cs m op r w' cs' →
      AInv w' cs' F → (∀ L', After L op r L' → LOK cs' L') →
      (∃ e, (BadAnswer w e ∧ NeedsChunk cs m e op) ∧ step ⟨w, ⟨rootOf cs, m⟩⟩ op = .error e) ∨
      ∃ r w' cs', step ⟨w, ⟨rootOf cs, m⟩⟩ op = .ok (r, ⟨w', ⟨rootOf cs', m⟩⟩) ∧ OpRes w cs m op r w' cs' ∧
      AInv w' cs' F ∧ DbgOK w' m ∧ ∀ L', After L op r L' → LOK cs' L' := by
    intro r w' cs' h1 h2 h3 h4
    have := h2.consts
    exact .inr ⟨r, w', cs', h1, h2, h3, hd.of_eq this.1 this.2.1, h4⟩
  cases hleg with
  | @allocate l hl =>
    rcases allocate_spec h hl hd with ⟨e, hbad, he⟩ | ⟨o, w', cs', he, hr, hi⟩
    · left; exact ⟨e, hbad, by simp only [step, he]; rfl⟩
    · refine fin (by simp only [step, he]; rfl) ⟨o, rfl, hr⟩ hi ?_
      intro L' ha
      cases o with
      | none => cases ha; exact hL.alloc_none hl hr
      | some s => cases ha; exact hL.alloc h hl hr
  | @allocateZeroed l hl =>
    rcases allocateZeroed_spec h hl hd with ⟨e, hbad, he⟩ | ⟨o, w', cs', w1, he, hr, _, hi, hw⟩
    · left; exact ⟨e, hbad, by simp only [step, he]; rfl⟩
    · refine fin (by simp only [step, he]; rfl) ⟨o, w1, rfl, hr, hw⟩ hi ?_
      intro L' ha
      cases o with
      | none => cases ha; exact hL.alloc_none hl hr
      | some s => cases ha; exact hL.alloc h hl hr
  | @resize b p old new hb hf hl =>
    rcases resize_spec h hl hd (InUsed.of_fits hL hb hf) with ⟨e, hbad, he⟩ | ⟨o, w', cs', he, hr, hi⟩
    · left; exact ⟨e, hbad, by simp only [step, he]; rfl⟩
    · refine fin (by simp only [step, he]; rfl) ⟨o, rfl, hr⟩ hi ?_
      intro L' ha
      cases o with
      | none => cases ha; exact hL.resize_none hl hr
      | some s =>
        cases ha with
        | resizeOk hb' hf' => exact hL.resize h hl hb' hf' hr
  | @growZeroed b p old new hb hf hl hs =>
    rcases growZeroed_spec h hl hd (InUsed.of_fits hL hb hf) hs with ⟨e, hbad, he⟩ | ⟨o, w', cs', w1, he, hr, hi, hw⟩
    · left; exact ⟨e, hbad, by simp only [step, he]; rfl⟩
    · refine fin (by simp only [step, he]; rfl) ⟨o, w1, rfl, hr, hw⟩ hi ?_
      intro L' ha
      cases o with
      | none => cases ha; exact hL.alloc_none hl hr
      | some s =>
        cases ha with
        | growZeroedOk hb' hf' => exact (hL.erase _).alloc h hl hr
  | @deallocate b p n hb hf =>
    have he := deallocate_spec (m := m) (p := p) (n := n) h (((hL.each b hb).2.2.2).sub (by omega) (by omega))
    refine fin (by simp only [step, he]; rfl) ⟨rfl, rfl, rfl⟩ h ?_
    intro L' ha
    cases ha; exact hL.erase _
  | reset =>
    obtain ⟨he, hi⟩ := reset_spec (m := m) h
    refine fin (by simp only [step, he]; rfl) ⟨rfl, rfl, rfl⟩ hi ?_
    intro L' ha
    cases ha; exact .nil
  | resetFinal =>
    obtain ⟨he, hi⟩ := resetFinal_spec (m := m) h
    refine fin (by simp only [step, he]; rfl) ⟨rfl, rfl, rfl⟩ hi ?_
    intro L' ha
    cases ha; exact .nil
  | @write b x v hb hx =>
    refine fin (r := .unit) (cs' := cs) rfl ⟨rfl, rfl, rfl⟩ (h.setUsed (.inr (hL.byte hb hx))) ?_
    intro L' ha
    cases ha; exact hL

/-! ### The log of calls to the underlying allocator -/

/-- The log describes exactly the chunks. -/
def LogInv (log : List BaseEvent) (cs : List Chunk) : Prop := openBlocks log = cs.map Chunk.blk ∧ FreesOK log

theorem SlowRes.log {w cs m l r w' cs'} (hr : SlowRes w cs m l r w' cs') (h : LogInv w.log cs) : LogInv w'.log cs' := by
  cases hr with
  | tooBig => exact h
  | refused => exact h
  | ok R sl m' h' ho hf hb hm hu =>
    refine ⟨?_, h.2⟩
    simp only [openBlocks, h.1, List.map_cons, Chunk.blk, newChunk]
    rw [show sl.addr + sl.len - sl.addr = sl.len by omega]

theorem AllocRes.log {w cs m l r w' cs'} (hr : AllocRes w cs m l r w' cs') (h : LogInv w.log cs) : LogInv w'.log cs' := by
  cases hr with
  | fast c t a hcs hb => subst hcs; exact h
  | slow hb hs => exact hs.log h

theorem ResizeRes.log {w cs m p old new r w' cs'} (hr : ResizeRes w cs m p old new r w' cs') (h : LogInv w.log cs) :
    LogInv w'.log cs' := by
  cases hr with
  | same => exact h
  | grow c t hcs ha hs htip hfit => subst hcs; exact h
  | move s w1 cs1 hn hgrow hr => exact AllocRes.log (w' := w1) hr h
  | fail w1 cs1 hn hgrow hr => exact hr.log h

theorem log_free {log : List BaseEvent} {pre : List BaseBlk} {cs : List Chunk} (h1 : openBlocks log = pre ++ cs.map Chunk.blk)
    (h2 : FreesOK log) (hok : ∀ c ∈ cs, ChunkOK c) (hpre : ∀ b ∈ pre, ∀ c ∈ cs, b.addr ≠ c.start) :
    openBlocks ((cs.map Chunk.freeEvent).reverse ++ log) = pre ∧ FreesOK ((cs.map Chunk.freeEvent).reverse ++ log) := by
  induction cs generalizing log with
  | nil => simpa using And.intro h1 h2
  | cons c cs ih =>
    rw [List.map_cons, List.reverse_cons, List.append_assoc, List.singleton_append]
    apply ih
    · simp only [Chunk.freeEvent, openBlocks, h1]
      rw [List.eraseP_append_right]
      · simp [Chunk.blk]
      · intro b hb
        simpa using hpre b hb c List.mem_cons_self
    · refine ⟨⟨c.blk, ?_, rfl, rfl, ?_, Nat.le_refl _⟩, h2⟩
      · rw [h1]; simp
      · exact (hok c List.mem_cons_self).req
    · exact fun d hd => hok d (List.mem_cons_of_mem _ hd)
    · exact fun b hb d hd => hpre b hb d (List.mem_cons_of_mem _ hd)

theorem resetWorld_log {w cs F} (h : AInv w cs F) (hl : LogInv w.log cs) : LogInv (resetWorld w cs).log (resetChunks cs) := by
  cases cs with
  | nil => exact hl
  | cons c cs =>
    have h1 := (freeAll_fields (rewound w c) cs).2.2.2.2
    unfold LogInv
    simp only [resetWorld, resetChunks]
    rw [h1]
    exact log_free (pre := [c.blk]) hl.1 hl.2 (fun d hd => h.ok d (List.mem_cons_of_mem _ hd)) (by
      intro b hb d hd
      rw [List.mem_singleton] at hb
      subst hb
      have := h.chunk_dis hd
      have hc := h.ok c List.mem_cons_self
      have hd' := h.ok d (List.mem_cons_of_mem _ hd)
      have := hd'.lo; have := hd'.hi; have := hc.lo; have := hc.hi
      simp only [Chunk.blk]
      omega)

theorem OpRes.log {w cs F m op r w' cs'} (h : AInv w cs F) (hr : OpRes w cs m op r w' cs') (hl : LogInv w.log cs) :
    LogInv w'.log cs' := by
  cases op with
  | allocate l => obtain ⟨o, _, hr⟩ := hr; exact hr.log hl
  | allocateZeroed l =>
    obtain ⟨o, w1, _, hr, hw⟩ := hr
    cases o with
    | none => subst hw; exact hr.log hl
    | some s => subst hw; exact AllocRes.log (w' := w1) hr hl
  | resize => obtain ⟨o, _, hr⟩ := hr; exact hr.log hl
  | growZeroed p old new =>
    obtain ⟨o, w1, _, hr, hw⟩ := hr
    cases o with
    | none => subst hw; exact hr.log hl
    | some s => subst hw; exact AllocRes.log (w' := w1) hr hl
  | deallocate => obtain ⟨_, rfl, rfl⟩ := hr; exact hl
  | reset => obtain ⟨_, rfl, rfl⟩ := hr; exact resetWorld_log h hl
  | resetFinal =>
    obtain ⟨_, rfl, rfl⟩ := hr
    have h1 := (freeAll_fields w cs).2.2.2.2
    unfold LogInv
    rw [h1]
    exact log_free (pre := []) hl.1 hl.2 h.ok (by simp)
  | write => obtain ⟨_, rfl, rfl⟩ := hr; exact hl

/-! ### Histories -/

/-- The invariant of states reached from `s0`, with ghost chunk list. -/
structure Inv (s0 s : St) (cs : List Chunk) (L : List Owned) : Prop where
  arena : AInv s.w cs s0.w.held
  root : s.a.root = rootOf cs
  min : s.a.minChunk = s0.a.minChunk
  dbg : DbgOK s.w s.a.minChunk
  led : LOK cs L
  oracle : s.w.oracle = s0.w.oracle
  top : s.w.top = s0.w.top
  log : LogInv s.w.log cs

theorem Inv.eta {s0 s cs L} (h : Inv s0 s cs L) : s = ⟨s.w, ⟨rootOf cs, s.a.minChunk⟩⟩ := by
  have := h.root
  cases s with
  | mk w a => cases a with
    | mk r m => simp only at *; rw [this]

theorem Start.inv {s : St} (h : Start s) : Inv s s [] [] where
  arena := ⟨trivial, by simp, by simp, h.world, trivial⟩
  root := h.root
  min := rfl
  dbg := h.dbg
  led := .nil
  oracle := rfl
  top := rfl
  log := by rw [h.log]; exact ⟨rfl, trivial⟩

/-- The main lemma on single steps from invariant states. -/
theorem Inv.step' {s0 s cs L} (h : Inv s0 s cs L) {op : Op} (hleg : Legal L op) :
    (∃ e, (BadAnswer s.w e ∧ NeedsChunk cs s.a.minChunk e op) ∧ Blink.step s op = .error e) ∨
    ∃ r s' cs', Blink.step s op = .ok (r, s') ∧ OpRes s.w cs s.a.minChunk op r s'.w cs' ∧
      ∀ L', After L op r L' → Inv s0 s' cs' L' := by
  rcases step_spec h.arena h.dbg h.led hleg with ⟨e, hbad, he⟩ | ⟨r, w', cs', he, hr, hi, hd, ha⟩
  · left; exact ⟨e, hbad, by rw [h.eta]; exact he⟩
  · right
    have hc := hr.consts
    refine ⟨r, ⟨w', ⟨rootOf cs', s.a.minChunk⟩⟩, cs', by rw [h.eta]; exact he, hr, fun L' hL' => ?_⟩
    exact ⟨hi, rfl, h.min, hd, ha L' hL', hc.2.2.trans h.oracle, hc.2.1.trans h.top, hr.log h.arena h.log⟩

theorem Inv.step {s0 s cs L} (h : Inv s0 s cs L) {op : Op} (hleg : Legal L op) :
    (∃ e, BadAnswer s.w e ∧ Blink.step s op = .error e) ∨
    ∃ r s' cs', Blink.step s op = .ok (r, s') ∧ OpRes s.w cs s.a.minChunk op r s'.w cs' ∧
      ∀ L', After L op r L' → Inv s0 s' cs' L' :=
  (h.step' hleg).imp (fun ⟨e, hb, he⟩ => ⟨e, hb.1, he⟩) id

/-- The same, with the result of the step given. -/
theorem Inv.step_ok {s0 s cs L s' L'} (h : Inv s0 s cs L) {op : Op} {r : Resp} (hleg : Legal L op)
    (hs : Blink.step s op = .ok (r, s')) (ha : After L op r L') :
    ∃ cs', OpRes s.w cs s.a.minChunk op r s'.w cs' ∧ Inv s0 s' cs' L' := by
  rcases h.step hleg with ⟨e, hbad, he⟩ | ⟨r1, s1, cs1, he, hr, hi⟩
  · rw [he] at hs; cases hs
  · rw [he] at hs
    injection hs with hs
    injection hs with h1 h2
    subst h1; subst h2
    exact ⟨cs1, hr, hi _ ha⟩

theorem Run.inv {s0 s1 : St} {L0 L : List Owned} {tr : List (Op × Resp)} {s : St} {cs0}
    (h0 : Inv s0 s1 cs0 L0) (h : Run s1 L0 tr s L) : ∃ cs, Inv s0 s cs L := by
  induction h with
  | nil => exact ⟨cs0, h0⟩
  | snoc _ hl hs ha ih =>
    obtain ⟨cs, hi⟩ := ih
    obtain ⟨cs', _, hi'⟩ := hi.step_ok hl hs ha
    exact ⟨cs', hi'⟩

theorem Reach.inv {s0 s L} (h : Reach s0 s L) : ∃ cs, Inv s0 s cs L := by
  obtain ⟨h0, tr, hr⟩ := h
  exact hr.inv h0.inv

/-- Carry a further property of world, chunks and history along. -/
theorem Run.inv_ext {s0 : St} (hst : Start s0) (P : World → List Chunk → List (Op × Resp) → Prop) (h0 : P s0.w [] [])
    (hstep : ∀ {tr s L cs op r s' L' cs'}, Run s0 [] tr s L → Inv s0 s cs L → Legal L op → After L op r L' →
      OpRes s.w cs s.a.minChunk op r s'.w cs' → Inv s0 s' cs' L' → P s.w cs tr → P s'.w cs' (tr ++ [(op, r)]))
    {tr s L} (h : Run s0 [] tr s L) : ∃ cs, Inv s0 s cs L ∧ P s.w cs tr := by
  induction h with
  | nil => exact ⟨[], hst.inv, h0⟩
  | snoc hr hl hs ha ih =>
    obtain ⟨cs, hi, hp⟩ := ih
    obtain ⟨cs', ho, hi'⟩ := hi.step_ok hl hs ha
    exact ⟨cs', hi', hstep hr hi hl ha ho hi' hp⟩

/-- Every event a call adds to the log is a deallocation or the request of a new chunk for the layout asked for. -/
theorem OpRes.events {w cs m op r w' cs'} (h : OpRes w cs m op r w' cs') {ev : BaseEvent} (he : ev ∈ w'.log) :
    ev ∈ w.log ∨ (¬ op.NoReset ∧ ∃ a l, ev = .dealloc a l) ∨ ∃ l R, op.layout? = some l ∧ chunkReq (rootCum cs) m l = some R ∧
      (ev = .refused ⟨R, 8⟩ ∨ ∃ b, ev = .alloc ⟨R, 8⟩ b) := by
  have key : ∀ {l o w1 cs1}, AllocRes w cs m l o w1 cs1 → op.layout? = some l → ev ∈ w1.log →
      ev ∈ w.log ∨ (¬ op.NoReset ∧ ∃ a l, ev = .dealloc a l) ∨ ∃ l R, op.layout? = some l ∧ chunkReq (rootCum cs) m l = some R ∧
      (ev = .refused ⟨R, 8⟩ ∨ ∃ b, ev = .alloc ⟨R, 8⟩ b) := by
    intro l o w1 cs1 hr hl he
    cases hr with
    | fast => exact .inl he
    | slow hb hs =>
      cases hs with
      | tooBig => exact .inl he
      | refused R h' ho =>
        rcases List.mem_cons.mp he with rfl | he
        · exact .inr (.inr ⟨l, R, hl, h', .inl rfl⟩)
        · exact .inl he
      | ok R sl m' h' =>
        rcases List.mem_cons.mp he with rfl | he
        · exact .inr (.inr ⟨l, R, hl, h', .inr ⟨_, rfl⟩⟩)
        · exact .inl he
  have free : ∀ {w0 : World} {cs}, ev ∈ (freeAll w0 cs).log → ev ∈ w0.log ∨ (∃ a l, ev = .dealloc a l) := by
    intro w0 cs he
    rw [(freeAll_fields w0 cs).2.2.2.2] at he
    rcases List.mem_append.mp he with he | he
    · rw [List.mem_reverse, List.mem_map] at he
      obtain ⟨c, _, rfl⟩ := he
      exact .inr ⟨_, _, rfl⟩
    · exact .inl he
  cases op with
  | allocate l => obtain ⟨o, _, h⟩ := h; exact key h rfl he
  | allocateZeroed l =>
    obtain ⟨o, w1, _, h, hw⟩ := h
    cases o with
    | none => subst hw; exact key h rfl he
    | some s => subst hw; exact key h rfl he
  | resize p old new =>
    obtain ⟨o, _, h⟩ := h
    cases h with
    | same => exact .inl he
    | grow => exact .inl he
    | move s w1 cs1 hn hg hr => exact key hr rfl he
    | fail w1 cs1 hn hg hr => exact key hr rfl he
  | growZeroed p old new =>
    obtain ⟨o, w1, _, h, hw⟩ := h
    cases o with
    | none => subst hw; exact key h rfl he
    | some s => subst hw; exact key h rfl he
  | deallocate => obtain ⟨_, rfl, _⟩ := h; exact .inl he
  | reset =>
    obtain ⟨_, rfl, _⟩ := h
    cases cs with
    | nil => exact .inl he
    | cons c t =>
      rcases free (w0 := rewound w c) he with h | h
      · exact .inl h
      · exact .inr (.inl ⟨fun hn => hn.1 rfl, h⟩)
  | resetFinal =>
    obtain ⟨_, rfl, _⟩ := h
    rcases free he with h | h
    · exact .inl h
    · exact .inr (.inl ⟨fun hn => hn.2 rfl, h⟩)
  | write => obtain ⟨_, rfl, _⟩ := h; exact .inl he

end Blink
