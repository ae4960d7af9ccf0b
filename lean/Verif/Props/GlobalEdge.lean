import Verif.Props.Global
import Verif.Proofs.ProxyMax
import Verif.Props.GlobalSync
/-
  Edges of the two global allocators: `realloc` of a null pointer (C80), and `reset` while another thread is inside a call (C81).
-/
namespace Blink

/-! ### C80: `realloc` of a null pointer -/

/-- C80, as the code suggests (`None => allocate(new_layout)`, src/global/local.rs:375-378): `realloc` of a null pointer is `alloc`; in particular
the block it returns is counted like any other, so that `reset` notices it. (The contract of `GlobalAlloc::realloc` does not allow
a null pointer; the code handles it all the same.) -/
def C80_full : Prop :=
  ∀ (g0 g g' : GS) (K : GBook) (l : Layout) (n p : Nat), GReach g0 g K → g0.w.debug = true → K.blinkMode = true → 0 < n →
    gstep g (.realloc 0 l n) = .ok (.ptr p, g') → p ≠ 0 → g'.allocations = K.blink.length + 1

/-- Several calls in a row, the responses of which are `rs` (used in statements only). -/
def gsteps : GS → List GOp → Option (List GResp × GS)
  | g, [] => some ([], g)
  | g, op :: ops =>
    match gstep g op with
    | .ok (r, g') => (gsteps g' ops).map fun x => (r :: x.1, x.2)
    | .error _ => none

/-- Several steps of the threaded allocator in a row, with responses (used in statements only). -/
def gssteps : GSS → List GAct → Option (List (Option GResp) × GSS)
  | g, [] => some ([], g)
  | g, a :: as =>
    match gsstep g a with
    | .ok (some (r, g')) => (gssteps g' as).map fun x => (r :: x.1, x.2)
    | _ => none

/-- C80 is false: the block is not counted. -/
theorem C80_full_false : ¬ C80_full := by
  intro hfull
  obtain ⟨g, K, hr, _, hf⟩ := of_gdemoAt (sizes := [4096]) (debug := true) (ops := [.blinkMode, .alloc ⟨16, 8⟩]) (op := .reset)
    (f := fun g K _ => K.blinkMode && decide (K.blink.length = 1) && match gstep g (.realloc 0 ⟨0, 8⟩ 24) with
      | .ok (.ptr p, g') => decide (p ≠ 0) && decide (g'.allocations = 1)
      | _ => false) (by decide +kernel)
  simp only [Bool.and_eq_true, decide_eq_true_eq] at hf
  obtain ⟨⟨h1, h2⟩, h3⟩ := hf
  split at h3
  · rename_i p g' hx
    simp only [Bool.and_eq_true, decide_eq_true_eq] at h3
    have := hfull _ g g' K _ _ p hr rfl h1 (by decide) hx h3.1
    omega
  · cases h3

/-- C80, what follows from it: a block of blink mode is outstanding; a second one is obtained by `realloc` of a null pointer and
deallocated; now `reset` passes its assertion, and the next `alloc` is given the memory of the first block. -/
theorem C80_unnoticed : ∃ g0 g K b g' p q, GReach g0 g K ∧ g0.w.debug = true ∧ K.blink = [b] ∧ 0 < b.size ∧
    gsteps g [.realloc 0 ⟨0, 8⟩ 24, .dealloc p ⟨24, 8⟩, .reset, .alloc ⟨16, 8⟩] = some ([.ptr p, .unit, .unit, .ptr q], g') ∧
    ¬ Owned.Apart b (granted q ⟨16, 8⟩) := by
  obtain ⟨g, K, hr, _, hf⟩ := of_gdemoAt (sizes := [4096]) (debug := true) (ops := [.blinkMode, .alloc ⟨16, 8⟩]) (op := .reset)
    (f := fun g K _ => decide (K.blink = [⟨65568, 16, 16, 8⟩]) &&
      match gsteps g [.realloc 0 ⟨0, 8⟩ 24, .dealloc 65584 ⟨24, 8⟩, .reset, .alloc ⟨16, 8⟩] with
      | some (rs, _) => decide (rs = [.ptr 65584, .unit, .unit, .ptr 65568])
      | none => false) (by decide +kernel)
  simp only [Bool.and_eq_true, decide_eq_true_eq] at hf
  obtain ⟨h1, h3⟩ := hf
  split at h3
  · rename_i rs g' hx
    obtain rfl := of_decide_eq_true h3
    exact ⟨_, g, K, _, g', _, _, hr, rfl, h1, by decide, hx, fun h => h 65568 (by simp [Owned.Has, granted])⟩
  · cases h3

/-- C80, what holds: in every reachable state, in both modes, `realloc` of a null pointer does what `alloc` with the new layout does, with the
same answer, the same effects and the same faults, but for the counter, which it leaves alone; and if there is no such layout it returns null and does
nothing. Missing: the counter. -/
theorem C80_realloc_null_partial {g0 g : GS} {K : GBook} (h : GReach g0 g K) (l : Layout) (n : Nat) :
    gstep g (.realloc 0 l n) =
      if n + l.align ≤ ISIZE then
        match gstep g (.alloc ⟨n, l.align⟩) with
        | .ok (r, g') => .ok (r, { g' with allocations := g.allocations })
        | .error e => .error e
      else .ok (.ptr 0, g) := by
  have hcnt : g.allocations + 1 < USIZE := by
    by_cases hd : g0.w.debug = true
    · exact (C50_counter h hd).2
    · obtain ⟨cs, D, hI⟩ := h.inv
      have h1 := hI.cnt
      rw [hI.dbg, if_neg hd] at h1
      rw [h1]; decide
  unfold gstep
  dsimp only
  by_cases hn : n + l.align ≤ ISIZE
  · simp only [layoutFrom, if_pos hn]
    rw [if_pos trivial]
    cases ha : g.allocate ⟨n, l.align⟩ with
    | error e => rfl
    | ok x =>
      obtain ⟨r, g1⟩ := x
      have hsame : g1.allocations = g.allocations := by
        unfold GS.allocate at ha
        split at ha
        · unfold GS.inner at ha
          obtain ⟨y, _, hy⟩ := ebind_inv ha
          cases hy; rfl
        · obtain ⟨y, hd, hy⟩ := ebind_inv ha
          unfold GS.direct at hd
          obtain ⟨z, _, hz⟩ := ebind_inv hd
          cases hz; cases hy; rfl
      have e : { g1 with allocations := g.allocations } = g1 := by rw [← hsame]
      rw [ebind_ok' rfl, ebind_ok' rfl]
      cases r with
      | block s =>
        simp only [GS.granted, GResp.ofResp]
        by_cases hb : g1.w.debug = true ∧ g1.enabled = true
        · rw [if_pos hb, if_pos (by rw [hsame]; exact hcnt)]
          show Except.ok _ = Except.ok _
          rw [← hsame]
        · rw [if_neg hb]
          show Except.ok _ = Except.ok _
          rw [e]
      | _ =>
        show Except.ok _ = Except.ok _
        rw [e]; rfl
  · simp only [layoutFrom, if_neg hn]
    rfl

/-- Non-vacuity: `realloc` of a null pointer obtains a block in a new chunk while another block is outstanding. -/
example : ∃ g0 g K g' p, GReach g0 g K ∧ g0.w.debug = true ∧ K.blink.length = 1 ∧ gstep g (.realloc 0 ⟨0, 8⟩ 5000) = .ok (.ptr p, g') ∧ p ≠ 0 ∧
    (openBlocks g'.w.log).length = (openBlocks g.w.log).length + 1 := by
  obtain ⟨g, K, hr, _, hf⟩ := of_gdemoAt (sizes := [4096, 10000]) (debug := true) (ops := [.blinkMode, .alloc ⟨16, 8⟩]) (op := .reset)
    (f := fun g K _ => decide (K.blink.length = 1) && match gstep g (.realloc 0 ⟨0, 8⟩ 5000) with
      | .ok (.ptr p, g') => decide (p ≠ 0) && decide ((openBlocks g'.w.log).length = (openBlocks g.w.log).length + 1)
      | _ => false) (by decide +kernel)
  simp only [Bool.and_eq_true, decide_eq_true_eq] at hf
  obtain ⟨h2, h3⟩ := hf
  split at h3
  · rename_i p g' hx
    simp only [Bool.and_eq_true, decide_eq_true_eq] at h3
    exact ⟨_, g, K, g', p, hr, rfl, h2, hx, h3⟩
  · cases h3

/-- C80 for the threaded allocator: nothing is outstanding; a block is obtained by `realloc` of a null pointer and deallocated; the
counter is now 2^64 - 1 and `reset` panics although nothing is outstanding. -/
theorem C80_threads_false_alarm : ∃ g0 g K g' p, GSReach g0 g K ∧ g0.s.w.debug = true ∧ K.all = [] ∧ (∀ t, K.busy t = none) ∧
    gssteps g ([.call 0 (.realloc 0 ⟨0, 8⟩ 24)] ++ ggoes 0 6 ++ [.call 0 (.dealloc p ⟨24, 8⟩)] ++ ggoes 0 4 ++ [.reset]) =
      some ([none] ++ List.replicate 5 none ++ [some (.ptr p)] ++ [none] ++ List.replicate 3 none ++ [some .unit, some .panicked], g') ∧
    g'.allocations = USIZE - 1 := by
  obtain ⟨g, K, hr, hl, hf⟩ := of_gsdemoAt (sizes := [4096]) (debug := true) (as := [.blinkMode]) (a := .reset)
    (f := fun g K _ => decide (K.all = []) &&
      match gssteps g ([.call 0 (.realloc 0 ⟨0, 8⟩ 24)] ++ ggoes 0 6 ++ [.call 0 (.dealloc 65568 ⟨24, 8⟩)] ++ ggoes 0 4 ++ [.reset]) with
      | some (rs, g') => decide (rs = [none] ++ List.replicate 5 none ++ [some (.ptr 65568)] ++ [none] ++ List.replicate 3 none ++ [some .unit, some .panicked]) &&
        decide (g'.allocations = USIZE - 1)
      | none => false) (by decide +kernel)
  have hq : ∀ t, K.busy t = none := by cases hl; assumption
  simp only [Bool.and_eq_true, decide_eq_true_eq] at hf
  obtain ⟨h1, h3⟩ := hf
  split at h3
  · rename_i rs g' hx
    simp only [Bool.and_eq_true, decide_eq_true_eq] at h3
    obtain ⟨rfl, h3⟩ := h3
    exact ⟨_, g, K, g', _, hr, rfl, h1, hq, hx, h3⟩
  · cases h3

/-! ### C81: `reset` while a thread is inside a call -/

/-- C81, as the documentation of `reset` suggests (src/global/sync.rs:216-220 asks that "previously allocated memory won't be used after reset", but
unlike `blink_mode` and `direct_mode` not for external synchronisation), with the assertion "Not everything was deallocated" (250-254) in
place: `reset` comes while thread `t` is inside `alloc`. Whatever `t` is given when its call returns is apart from what another
thread `u` is given by the next `alloc`. -/
def C81_full : Prop :=
  ∀ (g0 g g1 g2 g3 g4 : GSS) (K : GSBook) (t u : Nat) (l m : Layout) (p q j k : Nat), GSReach g0 g K → g0.s.w.debug = true →
    K.busy t = some (.alloc l, none) → K.busy u = none → m.Valid → 0 < m.size →
    gsstep g .reset = .ok (some (some .unit, g1)) →
    gsolo j g1 t = .ok (some (.ptr p, g2)) → p ≠ 0 →
    gsstep g2 (.call u (.alloc m)) = .ok (some (none, g3)) →
    gsolo k g3 u = .ok (some (.ptr q, g4)) → q ≠ 0 →
    Owned.Apart (granted p l) (granted q m)

/-- The witness of `C81_full_false`, as a computation. -/
def c81Demo (g : GSS) (t u : Nat) (m : Layout) (j k p q : Nat) : Option (GSS × GSS × GSS × GSS) :=
  match gsstep g .reset with
  | .ok (some (some .unit, g1)) =>
    match gsolo j g1 t with
    | .ok (some (.ptr p', g2)) =>
      match gsstep g2 (.call u (.alloc m)) with
      | .ok (some (none, g3)) =>
        match gsolo k g3 u with
        | .ok (some (.ptr q', g4)) => if p' = p ∧ q' = q then some (g1, g2, g3, g4) else none
        | _ => none
      | _ => none
    | _ => none
  | _ => none

theorem of_c81Demo {g t u m j k p q y} (h : c81Demo g t u m j k p q = some y) :
    gsstep g .reset = .ok (some (some .unit, y.1)) ∧ gsolo j y.1 t = .ok (some (.ptr p, y.2.1)) ∧
    gsstep y.2.1 (.call u (.alloc m)) = .ok (some (none, y.2.2.1)) ∧ gsolo k y.2.2.1 u = .ok (some (.ptr q, y.2.2.2)) := by
  unfold c81Demo at h
  split at h <;> try cases h
  rename_i g1 h1
  split at h <;> try cases h
  rename_i p' g2 h2
  split at h <;> try cases h
  rename_i g3 h3
  split at h <;> try cases h
  rename_i q' g4 h4
  split at h <;> try cases h
  rename_i he
  obtain ⟨rfl, rfl⟩ := he
  exact ⟨h1, h2, h3, h4⟩

/-- C81 is false: the thread has left the `SyncBlinkAlloc` with its block but has not counted it yet; `reset` sees 0 and succeeds; the
thread returns the block, and the next `alloc` is given the same memory. -/
theorem C81_full_false : ¬ C81_full := by
  intro hfull
  obtain ⟨g, K, hr, _, hf⟩ := of_gsdemoAt (sizes := [4096]) (debug := true)
    (as := [.blinkMode, .call 1 (.alloc ⟨16, 8⟩)] ++ ggoes 1 5) (a := .go 1 fresh)
    (f := fun g K _ => decide (K.busy 1 = some (.alloc ⟨16, 8⟩, none)) && (K.busy 2).isNone &&
      (c81Demo g 1 2 ⟨16, 8⟩ 1 8 65568 65568).isSome) (by decide +kernel)
  simp only [Bool.and_eq_true, decide_eq_true_eq, Option.isNone_iff_eq_none, Option.isSome_iff_exists] at hf
  obtain ⟨⟨h1, h2⟩, y, hy⟩ := hf
  obtain ⟨e1, e2, e3, e4⟩ := of_c81Demo hy
  exact hfull _ g _ _ _ _ K 1 2 _ _ _ _ _ _ hr rfl h1 h2 ⟨⟨3, rfl⟩, by decide⟩ (by decide) e1 e2 (by decide) e3 e4 (by decide) 65568
    (by simp [Owned.Has, granted])

theorem nodup_subset_length : ∀ (l m : List Nat), l.Nodup → (∀ x ∈ l, x ∈ m) → l.length ≤ m.length
  | [], _, _, _ => Nat.zero_le _
  | a :: l, m, hl, hs => by
    rw [List.nodup_cons] at hl
    have h1 := nodup_subset_length l (m.erase a) hl.2 fun x hx =>
      (List.mem_erase_of_ne (by rintro rfl; exact hl.1 hx)).mpr (hs x (List.mem_cons_of_mem _ hx))
    have ha := hs a List.mem_cons_self
    have h2 := List.length_erase_of_mem ha
    have h3 := List.length_pos_of_mem ha
    rw [List.length_cons]
    omega

/-- C81, what holds: in a debug build, if `reset` succeeds in blink mode, whoever is inside whatever call, then no block whose `alloc`
has returned is outstanding, and none has been handed over to a call in progress (`dealloc` or `realloc`). `ts` lists the threads inside;
there are fewer than 2^64 of them and of outstanding blocks together. Missing: blocks that calls in progress are about to return. -/
theorem C81_outstanding_partial {g0 g g' : GSS} {K : GSBook} (h : GSReach g0 g K) (hd : g0.s.w.debug = true) (hm : K.blinkMode = true)
    {ts : List Nat} (hts : ∀ t, K.busy t ≠ none → t ∈ ts) (hn : K.blink.length + ts.length < USIZE)
    (hs : gsstep g .reset = .ok (some (some .unit, g'))) :
    K.blink = [] ∧ ∀ t c b, K.busy t ≠ some (c, some b) := by
  obtain ⟨us, hu, hz, hcnt⟩ := C50_threads_counter h hd hm
  have hdbg : g.s.w.debug = true := by
    obtain ⟨cs, D, I, B, hI⟩ := h.inv
    exact hI.dbg.trans hd
  have h0 : g.allocations = 0 := by
    simp only [gsstep, GSS.reset] at hs
    by_cases hc : g.s.w.debug = true ∧ g.allocations ≠ 0
    · rw [if_pos hc] at hs; cases hs
    · by_cases ha : g.allocations = 0
      · exact ha
      · exact absurd ⟨hdbg, ha⟩ hc
  have hle : (us.filter fun t => (K.busy t).any fun x => x.2.isSome).length ≤ ts.length := by
    refine nodup_subset_length _ _ (hu.filter _) fun t ht => ?_
    have := (List.mem_filter.mp ht).2
    refine hts t ?_
    intro he
    rw [he] at this
    cases this
  rw [h0, Nat.mod_eq_of_lt (by omega)] at hcnt
  have hA : K.blink = [] := List.eq_nil_of_length_eq_zero (by omega)
  have hB : (us.filter fun t => (K.busy t).any fun x => x.2.isSome) = [] := List.eq_nil_of_length_eq_zero (by omega)
  refine ⟨hA, fun t c b he => ?_⟩
  have : t ∈ us.filter fun t => (K.busy t).any fun x => x.2.isSome := by
    refine List.mem_filter.mpr ⟨?_, by simp [he]⟩
    by_cases hmem : t ∈ us
    · exact hmem
    · have := hz t hmem
      rw [he] at this; cases this
  rw [hB] at this
  cases this

/-- Non-vacuity: `reset` succeeds while a thread is inside `alloc`, after another block was deallocated. -/
example : ∃ g0 g K g', GSReach g0 g K ∧ g0.s.w.debug = true ∧ K.blinkMode = true ∧ K.busy 1 = some (.alloc ⟨24, 8⟩, none) ∧
    gsstep g .reset = .ok (some (some .unit, g')) ∧ ∃ ts : List Nat, (∀ t, K.busy t ≠ none → t ∈ ts) ∧ K.blink.length + ts.length < USIZE := by
  have hd : (match gsexecAll (gsdemo [4096] true) GSBook.empty [] ([.blinkMode, .call 0 (.alloc ⟨16, 8⟩)] ++ ggoes 0 6 ++
        [.call 1 (.alloc ⟨24, 8⟩), .call 0 (.dealloc 65568 ⟨16, 8⟩)] ++ ggoes 0 4) with
      | some (g, K, ts) => K.blinkMode && decide (K.busy 1 = some (.alloc ⟨24, 8⟩, none)) && decide (K.blink.length + ts.length < USIZE) &&
        match gsstep g .reset with
        | .ok (some (some .unit, _)) => true
        | _ => false
      | none => false) = true := by decide +kernel
  split at hd
  · rename_i g K ts he
    obtain ⟨⟨tr, hr⟩, hts⟩ := gsexecAll_sound (fun _ _ => rfl) he
    simp only [Bool.and_eq_true, decide_eq_true_eq] at hd
    obtain ⟨⟨⟨h1, h2⟩, h3⟩, h4⟩ := hd
    split at h4
    · rename_i g' hx
      refine ⟨_, g, K, g', ⟨gsdemo_start _ _, tr, hr⟩, rfl, h1, h2, hx, ts, fun t ht => ?_, h3⟩
      by_cases hm : t ∈ ts
      · exact hm
      · exact absurd (hts t hm) ht
    · cases h4
  · cases hd

end Blink
