import Verif.Proofs.Mem
import Verif.Model.Local
/-
  Ghost description of the chunk chain, the arena invariant, and what each arena function does to it.
-/
namespace Blink

/-- Ghost view of one chunk. `req` is the size that was requested for it. -/
structure Chunk where
  start  : Nat
  cursor : Nat
  end_   : Nat
  cum    : Nat
  req    : Nat
deriving DecidableEq, Repr

/-- The block of the underlying allocator a chunk occupies. -/
def Chunk.blk (c : Chunk) : BaseBlk := ⟨c.start, c.end_ - c.start, ⟨c.req, 8⟩⟩

/-- Usable capacity of a chunk. -/
def Chunk.cap (c : Chunk) : Nat := c.end_ - (c.start + 32)

/-- Address of the newest chunk, 0 if there is none. -/
def rootOf : List Chunk → Nat
  | [] => 0
  | c :: _ => c.start

/-- The header of `c` is in memory, with link `prev`. -/
def HdrAt (m : Nat → Byte) (c : Chunk) (prev : Nat) : Prop :=
  WordAt m c.start c.cursor ∧ WordAt m (c.start + 8) c.end_ ∧ WordAt m (c.start + 16) prev ∧
  WordAt m (c.start + 24) c.cum

/-- Memory represents the chain of chunks. -/
def Rep (m : Nat → Byte) : List Chunk → Prop
  | [] => True
  | c :: cs => HdrAt m c (rootOf cs) ∧ Rep m cs

structure ChunkOK (c : Chunk) : Prop where
  al   : c.start % 8 = 0
  pos  : 0 < c.start
  lo   : c.start + 32 ≤ c.cursor
  hi   : c.cursor ≤ c.end_
  req  : c.req ≤ c.end_ - c.start

/-- `cumulative_size` of each chunk is the capacity of all older ones. -/
def CumOK : List Chunk → Prop
  | [] => True
  | c :: cs => c.cum = (cs.map Chunk.cap).sum ∧ CumOK cs

/-- Arena invariant: `cs` are the chunks of the arena, newest first; `F` the other blocks held from the underlying
allocator. -/
structure AInv (w : World) (cs : List Chunk) (F : List BaseBlk) : Prop where
  rep  : Rep w.mem cs
  ok   : ∀ c ∈ cs, ChunkOK c
  perm : w.held.Perm (cs.map Chunk.blk ++ F)
  held : HeldOK w
  cum  : CumOK cs

/-! ### Basic consequences -/

theorem HdrAt.congr {m m' : Nat → Byte} {c : Chunk} {p : Nat} (h : HdrAt m c p)
    (hm : ∀ x, c.start ≤ x → x < c.start + 32 → m' x = m x) : HdrAt m' c p := by
  obtain ⟨h1, h2, h3, h4⟩ := h
  exact ⟨h1.congr fun x _ _ => hm x (by omega) (by omega), h2.congr fun x _ _ => hm x (by omega) (by omega),
    h3.congr fun x _ _ => hm x (by omega) (by omega), h4.congr fun x _ _ => hm x (by omega) (by omega)⟩

theorem Rep.congr {m m' : Nat → Byte} {cs : List Chunk} (h : Rep m cs)
    (hm : ∀ c ∈ cs, ∀ x, c.start ≤ x → x < c.start + 32 → m' x = m x) : Rep m' cs := by
  induction cs with
  | nil => trivial
  | cons c cs ih =>
    exact ⟨h.1.congr (hm c List.mem_cons_self), ih h.2 fun d hd => hm d (List.mem_cons_of_mem _ hd)⟩

theorem AInv.mem_held {w cs F} (h : AInv w cs F) {c : Chunk} (hc : c ∈ cs) : c.blk ∈ w.held :=
  h.perm.mem_iff.mpr (List.mem_append_left _ (List.mem_map_of_mem hc))

theorem AInv.pairwise {w cs F} (h : AInv w cs F) : (cs.map Chunk.blk ++ F).Pairwise BaseBlk.Disjoint :=
  (h.perm.pairwise_iff (fun hab => BaseBlk.Disjoint.symm hab)).mp h.held.dis

theorem AInv.chunk_rng {w cs F} (h : AInv w cs F) {c : Chunk} (hc : c ∈ cs) : c.end_ < USIZE := by
  have h1 := h.held.rng _ (h.mem_held hc)
  have h2 := h.ok c hc
  have h3 := h.held.top
  have := h2.lo; have := h2.hi
  simp only [Chunk.blk] at h1
  omega

theorem AInv.acc {w cs F} (h : AInv w cs F) {c : Chunk} (hc : c ∈ cs) {a n : Nat} (h1 : c.start ≤ a)
    (h2 : a + n ≤ c.end_) : w.accessible a n = true := by
  have h3 := h.ok c hc
  have := h3.lo; have := h3.hi
  exact accessible_of (h.mem_held hc) h1 (by simp only [Chunk.blk]; omega)

/-- Ranges of different chunks are disjoint. -/
theorem AInv.chunk_dis {w c cs F} (h : AInv w (c :: cs) F) {d : Chunk} (hd : d ∈ cs) :
    c.end_ ≤ d.start ∨ d.end_ ≤ c.start := by
  have hp := h.pairwise
  simp only [List.map_cons, List.cons_append, List.pairwise_cons] at hp
  have := hp.1 d.blk (List.mem_append_left _ (List.mem_map_of_mem hd))
  have h1 := h.ok c List.mem_cons_self
  have h2 := h.ok d (List.mem_cons_of_mem _ hd)
  have := h1.lo; have := h1.hi; have := h2.lo; have := h2.hi
  simp only [BaseBlk.Disjoint, Chunk.blk] at *
  omega

/-- The part of the arena below the newest chunk. -/
theorem AInv.tail {w c cs F} (h : AInv w (c :: cs) F) : AInv w cs (c.blk :: F) where
  rep := h.rep.2
  ok := fun d hd => h.ok d (List.mem_cons_of_mem _ hd)
  perm := h.perm.trans (by
    simp only [List.map_cons, List.cons_append]
    exact (List.perm_middle).symm)
  held := h.held
  cum := h.cum.2

theorem AInv.chunk_dis2 {w cs F} (h : AInv w cs F) {c d : Chunk} (hc : c ∈ cs) (hd : d ∈ cs) :
    c = d ∨ (c.end_ ≤ d.start ∨ d.end_ ≤ c.start) := by
  induction cs generalizing F with
  | nil => cases hc
  | cons e t ih =>
    rcases List.mem_cons.mp hc with rfl | hc'
    · rcases List.mem_cons.mp hd with rfl | hd'
      · exact .inl rfl
      · exact .inr (h.chunk_dis hd')
    · rcases List.mem_cons.mp hd with rfl | hd'
      · exact .inr (h.chunk_dis hc').symm
      · exact ih h.tail hc' hd'

theorem sum_cap_lt {w cs F} (h : AInv w cs F) : (cs.map Chunk.cap).sum + 32 * cs.length ≤ w.top := by
  have h1 : (w.held.map (·.len)).sum ≤ w.top :=
    sum_len_le h.held.dis (fun b hb => Nat.le_of_lt (h.held.rng b hb).2)
  have h2 : (w.held.map (·.len)).sum = ((cs.map Chunk.blk ++ F).map (·.len)).sum :=
    (h.perm.map _).sum_nat
  rw [List.map_append, List.sum_append] at h2
  have h3 : (cs.map Chunk.cap).sum + 32 * cs.length = ((cs.map Chunk.blk).map (·.len)).sum := by
    have hok := h.ok
    clear h1 h2 h
    induction cs with
    | nil => rfl
    | cons c cs ih =>
      have := ih (fun d hd => hok d (List.mem_cons_of_mem _ hd))
      have hc := hok c List.mem_cons_self
      have := hc.lo; have := hc.hi
      simp only [List.map_cons, List.sum_cons, List.length_cons, Chunk.cap, Chunk.blk] at *
      omega
  omega

/-! ### Bump allocation -/

/-- Round `v` up to a multiple of `a`. -/
def roundUp (v a : Nat) : Nat := (v + (a - 1)) / a * a

/-- What one bump attempt yields: the address, if the layout fits between `cursor` and `e`. The first conjunct
is the code's overflow check. -/
def bump (cursor e : Nat) (l : Layout) : Option Nat :=
  if cursor + (l.size + (l.align - 1)) < USIZE ∧ roundUp cursor l.align + l.size ≤ e then some (roundUp cursor l.align)
  else none

theorem roundUp_facts (v : Nat) {a : Nat} (ha : 0 < a) :
    v ≤ roundUp v a ∧ roundUp v a < v + a ∧ roundUp v a % a = 0 := by
  unfold roundUp
  have h1 := Nat.div_add_mod (v + (a - 1)) a
  have h2 := Nat.mod_lt (v + (a - 1)) ha
  rw [Nat.mul_comm] at h1
  refine ⟨by omega, by omega, Nat.mul_mod_left _ _⟩

theorem roundUp_of_mod {v a : Nat} (ha : 0 < a) (h : v % a = 0) : roundUp v a = v := by
  have h1 := roundUp_facts v ha
  obtain ⟨q, hq⟩ : ∃ q, v = a * q := ⟨v / a, by have := Nat.div_add_mod v a; omega⟩
  obtain ⟨r, hr⟩ : ∃ r, roundUp v a = a * r := ⟨roundUp v a / a, by have := Nat.div_add_mod (roundUp v a) a; omega⟩
  have : ¬ (q < r) := by
    intro hlt
    have := Nat.mul_le_mul_left a hlt
    rw [Nat.mul_succ] at this
    omega
  have : r ≤ q := by omega
  have := Nat.mul_le_mul_left a this
  omega

theorem bump_facts {cursor e a : Nat} {l : Layout} (hl : l.Valid) (h : bump cursor e l = some a) :
    cursor ≤ a ∧ a < cursor + l.align ∧ a % l.align = 0 ∧ a + l.size ≤ e := by
  obtain ⟨k, _, hk, hpos, _⟩ := hl.facts
  unfold bump at h
  split at h
  · injection h with h
    subst h
    have := roundUp_facts cursor hpos
    omega
  · cases h

theorem tryBump_spec {cursor e : Nat} {l : Layout} {w : World} (hl : l.Valid) :
    tryBump cursor e l w = .ok ((bump cursor e l).map (fun a => (a, a + l.size)), w) := by
  obtain ⟨k, hk64, hk, hpos, hs⟩ := hl.facts
  have hr := roundUp_facts cursor hpos
  unfold tryBump layoutSum
  rw [bind_ok (a := l.size + (l.align - 1)) (w' := w)]
  · unfold checkedAdd bump
    by_cases h1 : cursor + (l.size + (l.align - 1)) < USIZE
    · have e1 : alignDown (cursor + (l.size + (l.align - 1)) - l.size) l.align = roundUp cursor l.align := by
        rw [hk]
        rw [alignDown_eq (by omega) hk64]
        unfold roundUp
        have := Nat.div_add_mod (cursor + (2 ^ k - 1)) (2 ^ k)
        rw [Nat.mul_comm] at this
        rw [show cursor + (l.size + (2 ^ k - 1)) - l.size = cursor + (2 ^ k - 1) by omega]
        omega
      simp only [h1, if_true, true_and]
      rw [bind_ok (subU_ok (by omega)), bind_ok (dassert_ok (by rw [e1]; omega)), bind_ok (dassert_ok (by rw [e1]; omega)),
        bind_ok (addU_ok (by rw [e1]; omega)), e1]
      by_cases h2 : e < roundUp cursor l.align + l.size
      · rw [if_pos h2, if_neg (by omega)]; rfl
      · rw [if_neg h2, if_pos (by omega), bind_ok (require_ok (by omega))]; rfl
    · simp only [h1, false_and, if_false]; rfl
  · rw [bind_ok (subU_ok (by omega)), addU_ok (by omega)]

/-! ### Header access -/

theorem AInv.loadCursor {w c cs F} (h : AInv w (c :: cs) F) : loadCursor c.start w = .ok (c.cursor, w) := by
  have hc := h.ok c List.mem_cons_self
  have := hc.al; have := hc.lo; have := hc.hi
  exact loadWord_ok (by omega) (h.acc List.mem_cons_self (by omega) (by omega)) h.rep.1.1

theorem AInv.loadEnd {w c cs F} (h : AInv w (c :: cs) F) : loadEnd c.start w = .ok (c.end_, w) := by
  have hc := h.ok c List.mem_cons_self
  have := hc.al; have := hc.lo; have := hc.hi
  exact loadWord_ok (by omega) (h.acc List.mem_cons_self (by omega) (by omega)) h.rep.1.2.1

theorem AInv.loadPrev {w c cs F} (h : AInv w (c :: cs) F) : loadPrev c.start w = .ok (rootOf cs, w) := by
  have hc := h.ok c List.mem_cons_self
  have := hc.al; have := hc.lo; have := hc.hi
  exact loadWord_ok (by omega) (h.acc List.mem_cons_self (by omega) (by omega)) h.rep.1.2.2.1

theorem AInv.loadCum {w c cs F} (h : AInv w (c :: cs) F) : loadCum c.start w = .ok (c.cum, w) := by
  have hc := h.ok c List.mem_cons_self
  have := hc.al; have := hc.lo; have := hc.hi
  exact loadWord_ok (by omega) (h.acc List.mem_cons_self (by omega) (by omega)) h.rep.1.2.2.2

theorem AInv.chunkCap {w c cs F} (h : AInv w (c :: cs) F) : chunkCap c.start w = .ok (c.cap, w) := by
  have h1 := h.ok c List.mem_cons_self
  have := h1.lo; have := h1.hi
  have := h.chunk_rng List.mem_cons_self
  unfold Blink.chunkCap
  rw [bind_ok h.loadEnd, bind_ok (addU_ok (by unfold HDR_SIZE; omega))]
  exact subU_ok (by unfold HDR_SIZE; omega)

/-! ### Moving the cursor -/

/-- The world after the cursor of chunk `c` was set to `n`. -/
def setCursor (w : World) (c : Chunk) (n : Nat) : World :=
  { w with mem := setBytes w.mem c.start 8 (fun i => .word n i) }

theorem AInv.setCursor {w c cs F} (h : AInv w (c :: cs) F) {n : Nat} (h1 : c.start + 32 ≤ n) (h2 : n ≤ c.end_) :
    AInv (setCursor w c n) ({ c with cursor := n } :: cs) F where
  rep := by
    obtain ⟨⟨a1, a2, a3, a4⟩, a5⟩ := h.rep
    refine ⟨⟨WordAt.set_same, a2.set_out (by simp), a3.set_out (by simp), a4.set_out (by simp)⟩, ?_⟩
    apply a5.congr
    intro d hd x hx1 hx2
    have hc := h.ok c List.mem_cons_self
    have := hc.lo; have := hc.hi
    have hd' := h.ok d (List.mem_cons_of_mem _ hd)
    have := hd'.lo; have := hd'.hi
    have := h.chunk_dis hd
    exact setBytes_out (by omega)
  ok := by
    intro d hd
    rcases List.mem_cons.mp hd with rfl | hd
    · have hc := h.ok c List.mem_cons_self
      exact ⟨hc.al, hc.pos, h1, h2, hc.req⟩
    · exact h.ok d (List.mem_cons_of_mem _ hd)
  perm := h.perm
  held := ⟨h.held.top, h.held.dis, h.held.rng⟩
  cum := h.cum

theorem cellCasWeak_spec {w c cs F} (h : AInv w (c :: cs) F) (n : Nat) :
    cellCasWeak c.start c.cursor n w = .ok ((), setCursor w c n) := by
  have hc := h.ok c List.mem_cons_self
  have := hc.al; have := hc.lo; have := hc.hi
  unfold cellCasWeak
  rw [bind_ok (show loadWord c.start w = _ from h.loadCursor), bind_ok (dassert_ok (fun _ => rfl))]
  exact storeWord_ok (by omega) (h.acc List.mem_cons_self (by omega) (by omega))

theorem cellCas_spec {w c cs F} (h : AInv w (c :: cs) F) (old n : Nat) :
    cellCas c.start old n w = .ok (if old = c.cursor then (true, setCursor w c n) else (false, w)) := by
  have hc := h.ok c List.mem_cons_self
  have := hc.al; have := hc.lo; have := hc.hi
  unfold cellCas
  rw [bind_ok (show loadWord c.start w = _ from h.loadCursor)]
  by_cases ho : old = c.cursor
  · rw [if_pos ho, if_pos ho, bind_ok (storeWord_ok (by omega) (h.acc List.mem_cons_self (by omega) (by omega)))]; rfl
  · rw [if_neg ho, if_neg ho]; rfl

theorem chunkAlloc_spec {w c cs F} {l : Layout} (h : AInv w (c :: cs) F) (hl : l.Valid) :
    chunkAlloc c.start l w = .ok (match bump c.cursor c.end_ l with
      | none => (none, w)
      | some a => (some ⟨a, l.size⟩, setCursor w c (a + l.size))) := by
  unfold chunkAlloc
  rw [bind_ok h.loadCursor, bind_ok h.loadEnd, bind_ok (tryBump_spec hl)]
  cases hb : bump c.cursor c.end_ l with
  | none => rfl
  | some a =>
    have hf := bump_facts hl hb
    simp only [Option.map_some]
    rw [bind_ok (cellCasWeak_spec h _), bind_ok (subU_ok (by omega)), bind_ok (dassert_ok (by omega)),
      bind_ok (dassert_ok (by omega)), show a + l.size - a = l.size by omega]
    rfl

end Blink
