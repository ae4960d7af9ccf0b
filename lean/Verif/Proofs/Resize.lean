import Verif.Proofs.Local
namespace Blink

/-- `resize` cannot be served from the current chunk. -/
def NoFitResize (cs : List Chunk) (p : Nat) (old new : Layout) : Prop :=
  ¬ (new.align ≤ old.align ∧ new.size ≤ old.size) ∧
  (∀ c t, cs = c :: t → ¬ (new.align ≤ old.align ∧ c.cursor = p + old.size ∧ p + new.size ≤ c.end_)) ∧ NoFit cs new

/-- Outcomes of `resize` of the block at `p`. -/
inductive ResizeRes (w : World) (cs : List Chunk) (m p : Nat) (old new : Layout) :
    Option Slice → World → List Chunk → Prop
  | same (ha : new.align ≤ old.align) (hs : new.size ≤ old.size) : ResizeRes w cs m p old new (some ⟨p, old.size⟩) w cs
  | grow (c : Chunk) (t : List Chunk) (hcs : cs = c :: t) (ha : new.align ≤ old.align) (hs : old.size < new.size)
      (htip : c.cursor = p + old.size) (hfit : p + new.size ≤ c.end_) :
      ResizeRes w cs m p old new (some ⟨p, new.size⟩) (setCursor w c (p + new.size)) ({ c with cursor := p + new.size } :: t)
  | move (s : Slice) (w1 : World) (cs1 : List Chunk) (hn : ¬ (new.align ≤ old.align ∧ new.size ≤ old.size))
      (hgrow : ∀ c t, cs = c :: t → ¬ (new.align ≤ old.align ∧ c.cursor = p + old.size ∧ p + new.size ≤ c.end_))
      (hr : AllocRes w cs m new (some s) w1 cs1) :
      ResizeRes w cs m p old new (some s)
        { w1 with mem := setBytes w1.mem s.addr (min new.size old.size) (fun i => w1.mem (p + i)) } cs1
  | fail (w1 : World) (cs1 : List Chunk) (hn : ¬ (new.align ≤ old.align ∧ new.size ≤ old.size))
      (hgrow : ∀ c t, cs = c :: t → ¬ (new.align ≤ old.align ∧ c.cursor = p + old.size ∧ p + new.size ≤ c.end_))
      (hr : AllocRes w cs m new none w1 cs1) :
      ResizeRes w cs m p old new none w1 cs1

theorem AInv.acc_used {w cs F} (h : AInv w cs F) {p n : Nat} (hu : InUsed cs p n) : w.accessible p n = true := by
  obtain ⟨d, hd, h1, h2⟩ := hu
  have hd' := h.ok d hd
  have := hd'.hi
  exact h.acc hd (by omega) (by omega)

theorem InUsed.sub {cs : List Chunk} {p n q k : Nat} (h : InUsed cs p n) (h1 : p ≤ q) (h2 : q + k ≤ p + n) :
    InUsed cs q k := by
  obtain ⟨d, hd, h3, h4⟩ := h
  exact ⟨d, hd, by omega, by omega⟩

/-- The copy after a reallocation is well defined. -/
theorem copy_spec {w cs F m p s w1 cs1} {old new : Layout} (h : AInv w cs F) (hl : new.Valid) (hp : InUsed cs p old.size)
    (hr : AllocRes w cs m new (some s) w1 cs1) (h1 : AInv w1 cs1 F) :
    copyNonoverlapping p s.addr (min new.size old.size) w1 =
      .ok ((), { w1 with mem := setBytes w1.mem s.addr (min new.size old.size) (fun i => w1.mem (p + i)) }) ∧
    AInv { w1 with mem := setBytes w1.mem s.addr (min new.size old.size) (fun i => w1.mem (p + i)) } cs1 F := by
  have hf := hr.fresh h hl
  have hn := hr.new_used h hl
  have hsrc := hr.mono hl hp
  have hdis := hf.2.2.2 _ _ hp
  have hlen := hf.1
  constructor
  · unfold copyNonoverlapping
    rw [if_pos]
    right
    exact ⟨h1.acc_used (hsrc.sub (Nat.le_refl _) (by omega)), h1.acc_used (hn.sub (Nat.le_refl _) (by omega)), by omega⟩
  · exact h1.setUsed (.inr (hn.sub (Nat.le_refl _) (by omega)))

theorem resize_spec {w cs F} {m p : Nat} {old new : Layout} (h : AInv w cs F) (hl : new.Valid) (hd : DbgOK w m)
    (hp : InUsed cs p old.size) :
    (∃ e, (BadAnswer w e ∧ NoFitResize cs p old new ∧ ReqIs cs m new e) ∧ BA.resize ⟨rootOf cs, m⟩ p old new w = .error e) ∨
    ∃ r w' cs', BA.resize ⟨rootOf cs, m⟩ p old new w = .ok ((r, ⟨rootOf cs', m⟩), w') ∧
      ResizeRes w cs m p old new r w' cs' ∧ AInv w' cs' F := by
  cases cs with
  | nil => obtain ⟨d, hd, _⟩ := hp; cases hd
  | cons c t =>
    have hne : rootOf (c :: t) ≠ 0 := by rw [Ne, rootOf_eq_zero h.ok]; simp
    have hf : BA.resizeFast ⟨rootOf (c :: t), m⟩ p old new w = chunkResize c.start p old new w := by
      unfold BA.resizeFast; rw [if_neg hne]; rfl
    have hc := h.ok c List.mem_cons_self
    have hclo := hc.lo
    have hchi := hc.hi
    have hce := h.chunk_rng List.mem_cons_self
    have hpe : p + old.size < USIZE := by
      obtain ⟨d, hd, h1, h2⟩ := hp
      have := h.chunk_rng hd
      have := (h.ok d hd).hi
      omega
    -- the slow path, once the fast one gave up
    have slow : chunkResize c.start p old new w = .ok (none, w) → bump c.cursor c.end_ new = none →
        ¬ (new.align ≤ old.align ∧ new.size ≤ old.size) →
        ¬ (new.align ≤ old.align ∧ c.cursor = p + old.size ∧ p + new.size ≤ c.end_) →
        (∃ e, (BadAnswer w e ∧ NoFitResize (c :: t) p old new ∧ ReqIs (c :: t) m new e) ∧ BA.resize ⟨rootOf (c :: t), m⟩ p old new w = .error e) ∨
        ∃ r w' cs', BA.resize ⟨rootOf (c :: t), m⟩ p old new w = .ok ((r, ⟨rootOf cs', m⟩), w') ∧
          ResizeRes w (c :: t) m p old new r w' cs' ∧ AInv w' cs' F := by
      intro h1 hb hns hng
      have hng' : ∀ c' t', c :: t = c' :: t' →
          ¬ (new.align ≤ old.align ∧ c'.cursor = p + old.size ∧ p + new.size ≤ c'.end_) := by
        intro c' t' he; injection he with e1 e2; subst e1; exact hng
      have hb' : ∀ c' t', c :: t = c' :: t' → bump c'.cursor c'.end_ new = none := by
        intro c' t' he; injection he with e1 e2; subst e1; exact hb
      unfold BA.resize
      rw [bind_ok (hf.trans h1)]
      simp only
      unfold resizeSlow
      rcases allocSlow_spec h hl hd with ⟨e, hbad, he⟩ | ⟨r, w1, cs1, he, hr, hi⟩
      · exact .inl ⟨e, ⟨hbad.1, ⟨hns, hng', hb'⟩, hbad.2⟩, bind_err (bind_err he)⟩
      · cases r with
        | none =>
          refine .inr ⟨none, w1, cs1, ?_, .fail w1 cs1 hns hng' (.slow hb' hr), hi⟩
          rw [bind_ok (a := (none, rootOf cs1)) (w' := w1)]
          · rfl
          · rw [bind_ok he]; rfl
        | some s =>
          have har := AllocRes.slow hb' hr
          obtain ⟨hcp, hi2⟩ := copy_spec h hl hp har hi
          refine .inr ⟨some s, _, cs1, ?_, .move s w1 cs1 hns hng' har, hi2⟩
          rw [bind_ok (a := (some s, rootOf cs1))]
          · rfl
          · rw [bind_ok he]
            simp only
            rw [bind_ok hcp]; rfl
    -- the reallocating tail
    have realloc : chunkResize c.start p old new w = chunkRealloc c.start p old new w →
        ¬ (new.align ≤ old.align ∧ new.size ≤ old.size) →
        ¬ (new.align ≤ old.align ∧ c.cursor = p + old.size ∧ p + new.size ≤ c.end_) →
        (∃ e, (BadAnswer w e ∧ NoFitResize (c :: t) p old new ∧ ReqIs (c :: t) m new e) ∧ BA.resize ⟨rootOf (c :: t), m⟩ p old new w = .error e) ∨
        ∃ r w' cs', BA.resize ⟨rootOf (c :: t), m⟩ p old new w = .ok ((r, ⟨rootOf cs', m⟩), w') ∧
          ResizeRes w (c :: t) m p old new r w' cs' ∧ AInv w' cs' F := by
      intro h1 hns hng
      have hca := chunkAlloc_spec h hl
      cases hb : bump c.cursor c.end_ new with
      | none =>
        rw [hb] at hca
        refine slow ?_ hb hns hng
        rw [h1]; unfold chunkRealloc
        rw [bind_ok hca]; rfl
      | some a =>
        rw [hb] at hca
        have hbf := bump_facts hl hb
        have hng' : ∀ c' t', c :: t = c' :: t' →
            ¬ (new.align ≤ old.align ∧ c'.cursor = p + old.size ∧ p + new.size ≤ c'.end_) := by
          intro c' t' he; injection he with e1 e2; subst e1; exact hng
        have har : AllocRes w (c :: t) m new _ _ _ := .fast c t a rfl hb
        obtain ⟨hcp, hi2⟩ := copy_spec h hl hp har (h.setCursor (by omega) (by omega))
        refine .inr ⟨_, _, _, ?_, .move _ _ _ hns hng' har, hi2⟩
        unfold BA.resize
        rw [bind_ok (a := some ⟨a, new.size⟩)]
        · rfl
        · rw [hf, h1]; unfold chunkRealloc
          rw [bind_ok hca]; simp only
          rw [bind_ok hcp]; rfl
    by_cases ha : new.align ≤ old.align
    · by_cases hs : new.size ≤ old.size
      · refine .inr ⟨_, _, _, ?_, .same ha hs, h⟩
        unfold BA.resize
        rw [bind_ok (a := some ⟨p, old.size⟩) (w' := w)]
        · rfl
        · rw [hf]; unfold chunkResize; rw [if_pos ha, if_pos hs]; rfl
      · by_cases ht : c.cursor = p + old.size
        · by_cases hfit : p + new.size ≤ c.end_
          · refine .inr ⟨_, _, _, ?_, .grow c t rfl ha (by omega) ht hfit, h.setCursor (by omega) hfit⟩
            unfold BA.resize
            rw [bind_ok (a := some ⟨p, new.size⟩) (w' := setCursor w c (p + new.size))]
            · rfl
            · rw [hf]; unfold chunkResize checkedAdd
              rw [if_pos ha, if_neg hs, bind_ok (addU_ok hpe), bind_ok h.loadCursor, if_pos ht,
                if_pos (show p + new.size < USIZE by omega)]
              simp only
              rw [bind_ok h.loadEnd, if_neg (by omega)]
              have hcas := cellCas_spec h c.cursor (p + new.size)
              rw [if_pos rfl] at hcas
              rw [bind_ok hcas]
              simp only [if_true]
              rw [bind_ok (subU_ok (by omega)), bind_ok (dassert_ok (by omega)),
                show p + new.size - p = new.size by omega]
              rfl
          · refine slow ?_ ?_ (by omega) (by omega)
            · unfold chunkResize checkedAdd
              rw [if_pos ha, if_neg hs, bind_ok (addU_ok hpe), bind_ok h.loadCursor, if_pos ht]
              by_cases ho : p + new.size < USIZE
              · rw [if_pos ho]
                simp only
                rw [bind_ok h.loadEnd, if_pos (by omega)]; rfl
              · rw [if_neg ho]; rfl
            · cases hb : bump c.cursor c.end_ new with
              | none => rfl
              | some a =>
                have := bump_facts hl hb
                omega
        · refine realloc ?_ (by omega) (by omega)
          unfold chunkResize
          rw [if_pos ha, if_neg hs, bind_ok (addU_ok hpe), bind_ok h.loadCursor, if_neg ht]
    · refine realloc ?_ (by omega) (by omega)
      unfold chunkResize
      rw [if_neg ha]

/-! ### Deallocation -/

theorem setCursor_self {w c cs F} (h : AInv w (c :: cs) F) : setCursor w c c.cursor = w := by
  unfold setCursor
  rw [h.rep.1.1.set_id]

/-- `deallocate` of a live block changes nothing at all. -/
theorem deallocate_spec {w cs F} {m p n : Nat} (h : AInv w cs F) (hp : InUsed cs p n) :
    BA.deallocate ⟨rootOf cs, m⟩ p n w = .ok ((), w) := by
  cases cs with
  | nil => obtain ⟨d, hd, _⟩ := hp; cases hd
  | cons c t =>
    have hne : rootOf (c :: t) ≠ 0 := by rw [Ne, rootOf_eq_zero h.ok]; simp
    have hpe : p + n < USIZE := by
      obtain ⟨d, hd, h1, h2⟩ := hp
      have := h.chunk_rng hd
      have := (h.ok d hd).hi
      omega
    unfold BA.deallocate arenaDealloc
    simp only
    rw [if_neg hne]
    unfold chunkDealloc
    rw [bind_ok (addU_ok hpe)]
    have hcas := cellCas_spec h p (p + n)
    by_cases hcur : p = c.cursor
    · rw [if_pos hcur] at hcas
      have hn0 : n = 0 := by
        obtain ⟨d, hd, h1, h2⟩ := hp
        have hc := h.ok c List.mem_cons_self
        have := hc.lo; have := hc.hi
        have hd' := h.ok d hd
        have := hd'.lo; have := hd'.hi
        rcases List.mem_cons.mp hd with rfl | hd
        · omega
        · have := h.chunk_dis hd
          omega
      subst hn0
      rw [Nat.add_zero, hcur, setCursor_self h] at hcas
      simp only [rootOf, Nat.add_zero]
      rw [hcur, bind_ok hcas]; rfl
    · rw [if_neg hcur] at hcas
      simp only [rootOf]
      rw [bind_ok hcas]; rfl

end Blink
