import Verif.Proofs.Step
import Verif.Spec.Sync
/-
  The invariant of the multi-threaded system and its preservation by every step.
-/
namespace Blink

theorem ebind_ok {ε α β} {x : Except ε α} {f : α → Except ε β} {a : α} (h : x = .ok a) : (x >>= f) = f a := by
  subst h; rfl

theorem ebind_err {ε α β} {x : Except ε α} {f : α → Except ε β} {e : ε} (h : x = .error e) : (x >>= f) = .error e := by
  subst h; rfl

/-! ### Effects of arena steps that write no byte in use -/

/-- From `w`, `cs` to `w'`, `cs'`: used ranges stay used and their bytes unchanged. -/
structure Eff (F : List BaseBlk) (w : World) (cs : List Chunk) (w' : World) (cs' : List Chunk) : Prop where
  inv : AInv w' cs' F
  mono : ∀ p n, InUsed cs p n → InUsed cs' p n
  frame : ∀ x, InUsed cs x 1 → w'.mem x = w.mem x
  consts : w'.debug = w.debug ∧ w'.top = w.top ∧ w'.oracle = w.oracle
  log : LogInv w.log cs → LogInv w'.log cs'

theorem Eff.refl {F w cs} (h : AInv w cs F) : Eff F w cs w cs := ⟨h, fun _ _ h => h, fun _ _ => rfl, ⟨rfl, rfl, rfl⟩, id⟩

theorem Eff.cursor {F w c t} (h : AInv w (c :: t) F) {n : Nat} (h1 : c.cursor ≤ n) (h2 : n ≤ c.end_) :
    Eff F w (c :: t) (setCursor w c n) ({ c with cursor := n } :: t) where
  inv := h.setCursor (by have := (h.ok c List.mem_cons_self).lo; omega) h2
  mono := by
    rintro p k ⟨d, hd, a1, a2⟩
    rcases List.mem_cons.mp hd with rfl | hd
    · exact ⟨_, List.mem_cons_self, a1, by simp only; omega⟩
    · exact ⟨d, List.mem_cons_of_mem _ hd, a1, a2⟩
  frame := by
    intro x hx
    have := h.used_not_hdr hx List.mem_cons_self
    simp only [setCursor]
    exact setBytes_out (by omega)
  consts := ⟨rfl, rfl, rfl⟩
  log := id

theorem SlowRes.eff {F w cs m l r w' cs'} (h : AInv w cs F) (hr : SlowRes w cs m l r w' cs') (hi : AInv w' cs' F) :
    Eff F w cs w' cs' where
  inv := hi
  mono := by
    rintro p k ⟨d, hd, a1, a2⟩
    cases hr with
    | tooBig => exact ⟨d, hd, a1, a2⟩
    | refused => exact ⟨d, hd, a1, a2⟩
    | ok => exact ⟨d, List.mem_cons_of_mem _ hd, a1, a2⟩
  frame := by
    rintro x ⟨d, hd, h1, h2⟩
    have hd' := h.ok d hd
    have := hd'.lo; have := hd'.hi
    cases hr with
    | tooBig => rfl
    | refused => rfl
    | ok R sl m' h' ho hf hb hm hu =>
      simp only [freshOk, Bool.and_eq_true, decide_eq_true_eq, List.all_eq_true] at hf
      have := hf.2 _ (h.mem_held hd)
      simp only [Chunk.blk] at this
      exact hm x (by omega)
  consts := by cases hr <;> exact ⟨rfl, rfl, rfl⟩
  log := hr.log

/-- A fresh block may join the callers' blocks. -/
theorem LOK.add {cs cs' L} {s : Slice} {l : Layout} (hL : LOK cs L) (hl : l.Valid) (hlen : l.size ≤ s.len)
    (hal : s.addr % l.align = 0) (hu : InUsed cs' s.addr s.len) (hm : ∀ p n, InUsed cs p n → InUsed cs' p n)
    (hd : ∀ p n, InUsed cs p n → p + n ≤ s.addr ∨ s.addr + s.len ≤ p) : LOK cs' (Owned.of s l :: L) := by
  refine ⟨?_, ?_⟩
  · intro b hb
    rcases List.mem_cons.mp hb with rfl | hb
    · exact ⟨hlen, hl.1, hal, hu⟩
    · obtain ⟨a1, a2, a3, a4⟩ := hL.each b hb
      exact ⟨a1, a2, a3, hm _ _ a4⟩
  · rw [List.pairwise_cons]
    refine ⟨?_, hL.apart⟩
    rintro b hb x ⟨hx1, hx2⟩
    have := hd _ _ (hL.each b hb).2.2.2
    simp only [Owned.Has, Owned.of] at *
    omega

/-! ### All blocks: the callers' and those handed to running calls -/

/-- The blocks `owned` and, for every thread `t`, `B t`, are well placed and pairwise apart. -/
def Fam (cs : List Chunk) (owned : List Owned) (B : Nat → List Owned) : Prop :=
  ∃ ts : List Nat, ts.Nodup ∧ (∀ u, u ∉ ts → B u = []) ∧ LOK cs (owned ++ ts.flatMap B)

theorem flatMap_perm {α β} {l l' : List α} (f : α → List β) (h : l.Perm l') : (l.flatMap f).Perm (l'.flatMap f) := by
  induction h with
  | nil => exact .refl _
  | cons x h ih => simp only [List.flatMap_cons]; exact ih.append_left _
  | swap x y l =>
    simp only [List.flatMap_cons, ← List.append_assoc]
    exact List.Perm.append_right _ List.perm_append_comm
  | trans _ _ h1 h2 => exact h1.trans h2

theorem flatMap_congr' {α β} {l : List α} {f g : α → List β} (h : ∀ x ∈ l, f x = g x) : l.flatMap f = l.flatMap g := by
  induction l with
  | nil => rfl
  | cons x l ih =>
    simp only [List.flatMap_cons]
    rw [h x List.mem_cons_self, ih fun y hy => h y (List.mem_cons_of_mem _ hy)]

theorem put_same {α} (f : Nat → α) (t : Nat) (a : α) : put f t a t = a := if_pos rfl
theorem put_ne {α} (f : Nat → α) {t u : Nat} (a : α) (h : u ≠ t) : put f t a u = f u := if_neg h
theorem put_self {α} (f : Nat → α) (t : Nat) : put f t (f t) = f := by
  funext u; unfold put; split
  · rename_i h; rw [h]
  · rfl

theorem Fam.focus {cs owned B} (h : Fam cs owned B) (t : Nat) :
    ∃ R, LOK cs (owned ++ (B t ++ R)) ∧ (∀ u, u ≠ t → ∀ b ∈ B u, b ∈ R) ∧
      ∀ {cs' owned' x}, LOK cs' (owned' ++ (x ++ R)) → Fam cs' owned' (put B t x) := by
  obtain ⟨ts, hn, hz, hL⟩ := h
  have key : ∃ us : List Nat, t ∉ us ∧ us.Nodup ∧ (∀ u, u ∉ t :: us → B u = []) ∧ LOK cs (owned ++ (t :: us).flatMap B) := by
    by_cases ht : t ∈ ts
    · have hp := List.perm_cons_erase ht
      have hn' := hp.nodup_iff.mp hn
      rw [List.nodup_cons] at hn'
      exact ⟨ts.erase t, hn'.1, hn'.2, fun u hu => hz u fun hu' => hu (hp.mem_iff.mp hu'),
        hL.perm ((flatMap_perm B hp).append_left owned)⟩
    · refine ⟨ts, ht, hn, fun u hu => hz u fun hu' => hu (List.mem_cons_of_mem _ hu'), ?_⟩
      rw [List.flatMap_cons, hz t ht]; exact hL
  obtain ⟨us, h1, h2, h3, h4⟩ := key
  refine ⟨us.flatMap B, by rw [List.flatMap_cons] at h4; exact h4, ?_, ?_⟩
  · intro u hu b hb
    rw [List.mem_flatMap]
    refine ⟨u, ?_, hb⟩
    by_cases hm : u ∈ t :: us
    · exact (List.mem_cons.mp hm).resolve_left hu
    · rw [h3 u hm] at hb; cases hb
  · intro cs' owned' x hx
    refine ⟨t :: us, List.nodup_cons.mpr ⟨h1, h2⟩, ?_, ?_⟩
    · intro u hu
      rw [put_ne]
      · exact h3 u hu
      · intro he; exact hu (he ▸ List.mem_cons_self)
    · rw [List.flatMap_cons, put_same,
        flatMap_congr' (f := put B t x) (g := B) (fun u hu => put_ne _ _ (fun he : u = t => h1 (he ▸ hu)))]
      exact hx

theorem Fam.owned {cs owned B} (h : Fam cs owned B) : LOK cs owned := by
  obtain ⟨ts, _, _, hL⟩ := h
  exact ⟨fun b hb => hL.each b (List.mem_append_left _ hb), (List.pairwise_append.mp hL.apart).1⟩

/-! ### Threads -/

/-- Threads holding the read lock. -/
def Pc.holdsR : Pc → Bool
  | .load .. | .cas .. | .rload .. | .rcas .. | .free .. | .unlockSlow .. => true
  | .copy w .. => !w
  | .ret w _ => !w
  | _ => false

/-- Threads holding the write lock. -/
def Pc.holdsW : Pc → Bool
  | .slow .. => true
  | .copy w .. => w
  | .ret w _ => w
  | _ => false

/-- The lock state says who is where. -/
structure LockOK (readers : List Nat) (writer : Option Nat) (pcs : Nat → Pc) : Prop where
  nodup : readers.Nodup
  rd : ∀ t, t ∈ readers ↔ (pcs t).holdsR = true
  wr : ∀ t, writer = some t ↔ (pcs t).holdsW = true
  excl : writer ≠ none → readers = []

/-- A call working on `j`, holding the blocks `B`. Block contents are what they were when the call started. -/
inductive JobOK (m sn : Nat → Byte) : Option (Call × Option Owned) → Job → List Owned → Prop
  | alloc {l} (h : l.Valid) : JobOK m sn (some (.allocate l, none)) (.alloc l) []
  | resize {b p old new} (hf : b.Fits p old) (h : new.Valid) (hs : ∀ x, b.Has x → m x = sn x) :
      JobOK m sn (some (.resize p old new, some b)) (.resize p old new) [b]

/-- A thread executing the recorded call is at `pc` and holds the blocks `B`. -/
inductive TOK (m : Nat → Byte) (root : Nat) (sn : Nat → Byte) : Option (Call × Option Owned) → Pc → List Owned → Prop
  | idle : TOK m root sn none .idle []
  | rdAlloc {l} (h : l.Valid) : TOK m root sn (some (.allocate l, none)) (.rd (.allocate l)) []
  | rdResize {b p old new} (j : JobOK m sn (some (.resize p old new, some b)) (.resize p old new) [b]) :
      TOK m root sn (some (.resize p old new, some b)) (.rd (.resize p old new)) [b]
  | rdDealloc {b p n} (hf : b.addr = p ∧ b.size ≤ n ∧ n ≤ b.len) :
      TOK m root sn (some (.deallocate p n, some b)) (.rd (.deallocate p n)) [b]
  | load {bz j B} (hr : root ≠ 0) (hj : JobOK m sn bz j B) : TOK m root sn bz (.load root j) B
  | cas {bz j B c} (hr : root ≠ 0) (hj : JobOK m sn bz j B) : TOK m root sn bz (.cas root j c) B
  | rload {bz p old new B} (hr : root ≠ 0) (hj : JobOK m sn bz (.resize p old new) B) (ha : new.align ≤ old.align)
      (hs : old.size < new.size) : TOK m root sn bz (.rload root p old new) B
  | rcas {bz p old new B} (hr : root ≠ 0) (hj : JobOK m sn bz (.resize p old new) B) (ha : new.align ≤ old.align)
      (hs : old.size < new.size) : TOK m root sn bz (.rcas root p old new (p + old.size)) B
  | free {b p n} (hr : root ≠ 0) (hf : b.addr = p ∧ b.size ≤ n ∧ n ≤ b.len) :
      TOK m root sn (some (.deallocate p n, some b)) (.free root p n) [b]
  | unlockSlow {bz j B} (hj : JobOK m sn bz j B) : TOK m root sn bz (.unlockSlow j) B
  | wr {bz j B} (hj : JobOK m sn bz j B) : TOK m root sn bz (.wr j) B
  | slow {bz j B} (hj : JobOK m sn bz j B) : TOK m root sn bz (.slow j) B
  | copy {b p old new wr s k} (j : JobOK m sn (some (.resize p old new, some b)) (.resize p old new) [b])
      (hk : k ≤ min new.size old.size) (hc : ∀ i, i < k → m (s.addr + i) = sn (p + i)) :
      TOK m root sn (some (.resize p old new, some b)) (.copy wr p old new s k) [Owned.of s new, b]
  | retAllocOk {l wr s} : TOK m root sn (some (.allocate l, none)) (.ret wr (.block s)) [Owned.of s l]
  | retAllocErr {l wr} : TOK m root sn (some (.allocate l, none)) (.ret wr .err) []
  | retResizeOk {b p old new wr s} (hc : ∀ i, i < min new.size old.size → m (s.addr + i) = sn (p + i)) :
      TOK m root sn (some (.resize p old new, some b)) (.ret wr (.block s)) [Owned.of s new]
  | retResizeErr {b p old new wr} (j : JobOK m sn (some (.resize p old new, some b)) (.resize p old new) [b]) :
      TOK m root sn (some (.resize p old new, some b)) (.ret wr .err) [b]
  | retDealloc {b p n wr} : TOK m root sn (some (.deallocate p n, some b)) (.ret wr .unit) []

theorem JobOK.frame {m m' sn bz j B} (h : JobOK m sn bz j B) (hm : ∀ b ∈ B, ∀ x, b.Has x → m' x = m x) :
    JobOK m' sn bz j B := by
  cases h with
  | alloc h => exact .alloc h
  | resize hf h hs => exact .resize hf h fun x hx => (hm _ List.mem_cons_self x hx).trans (hs x hx)

theorem TOK.frame {m m' root sn bz pc B} (h : TOK m root sn bz pc B) (hm : ∀ b ∈ B, ∀ x, b.Has x → m' x = m x)
    (hsz : ∀ b ∈ B, b.size ≤ b.len) : TOK m' root sn bz pc B := by
  have new_byte : ∀ {s : Slice} {new old : Layout} {B' : List Owned}, B = Owned.of s new :: B' →
      ∀ i, i < min new.size old.size → m' (s.addr + i) = m (s.addr + i) := by
    rintro s new old B' rfl i hi
    have h1 := hsz _ List.mem_cons_self
    refine hm _ List.mem_cons_self _ ⟨by simp only [Owned.of]; omega, by simp only [Owned.of] at h1 ⊢; omega⟩
  cases h with
  | idle => exact .idle
  | rdAlloc h => exact .rdAlloc h
  | rdResize j => exact .rdResize (j.frame hm)
  | rdDealloc hf => exact .rdDealloc hf
  | load hr hj => exact .load hr (hj.frame hm)
  | cas hr hj => exact .cas hr (hj.frame hm)
  | rload hr hj ha hs => exact .rload hr (hj.frame hm) ha hs
  | rcas hr hj ha hs => exact .rcas hr (hj.frame hm) ha hs
  | free hr hf => exact .free hr hf
  | unlockSlow hj => exact .unlockSlow (hj.frame hm)
  | wr hj => exact .wr (hj.frame hm)
  | slow hj => exact .slow (hj.frame hm)
  | copy j hk hc =>
    exact .copy (j.frame fun b hb => hm b (List.mem_cons_of_mem _ hb)) hk fun i hi =>
      (new_byte rfl i (Nat.lt_of_lt_of_le hi hk)).trans (hc i hi)
  | retAllocOk => exact .retAllocOk
  | retAllocErr => exact .retAllocErr
  | retResizeOk hc => exact .retResizeOk fun i hi => (new_byte rfl i hi).trans (hc i hi)
  | retResizeErr j => exact .retResizeErr (j.frame hm)
  | retDealloc => exact .retDealloc

theorem TOK.root {m root root' sn bz pc B} (h : TOK m root sn bz pc B) (hp : pc.holdsR = false) :
    TOK m root' sn bz pc B := by
  cases h <;> first | cases hp | skip
  · exact .idle
  · exact .rdAlloc ‹_›
  · exact .rdResize ‹_›
  · exact .rdDealloc ‹_›
  · exact .wr ‹_›
  · exact .slow ‹_›
  · exact .copy ‹_› ‹_› ‹_›
  · exact .retAllocOk
  · exact .retAllocErr
  · exact .retResizeOk ‹_›
  · exact .retResizeErr ‹_›
  · exact .retDealloc

/-! ### The invariant -/

structure SInv (s0 s : SS) (cs : List Chunk) (K : Book) (B : Nat → List Owned) : Prop where
  arena : AInv s.w cs s0.w.held
  root : s.root = rootOf cs
  min : s.minChunk = s0.minChunk
  dbg : DbgOK s.w s.minChunk
  oracle : s.w.oracle = s0.w.oracle
  top : s.w.top = s0.w.top
  log : LogInv s.w.log cs
  seen : ∀ c t, cs = c :: t → ∀ v ∈ s.seen, v ≤ c.cursor
  fam : Fam cs K.owned B
  lock : LockOK s.readers s.writer s.pcs
  thr : ∀ t, TOK s.w.mem s.root (K.snap t) (K.busy t) (s.pcs t) (B t)

theorem SStart.inv {s : SS} (h : SStart s) : SInv s s [] Book.empty (fun _ => []) where
  arena := ⟨trivial, by simp, by simp, h.world, trivial⟩
  root := h.root
  min := rfl
  dbg := h.dbg
  oracle := rfl
  top := rfl
  log := by rw [h.log]; exact ⟨rfl, trivial⟩
  seen := by intro c t hc; cases hc
  fam := ⟨[], .nil, fun _ _ => rfl, .nil⟩
  lock := ⟨by rw [h.readers]; exact .nil, by intro t; rw [h.readers, h.pcs t]; simp [Pc.holdsR],
    by intro t; rw [h.writer, h.pcs t]; simp [Pc.holdsW], by intro _; exact h.readers⟩
  thr := by intro t; rw [h.pcs t]; exact .idle

/-- What a step of thread `t` may do to the whole state. -/
theorem SInv.upd {s0 s cs K B} (h : SInv s0 s cs K B) (t : Nat) {s' : SS} {K' : Book} {cs' : List Chunk} {R bt : List Owned}
    (hR : LOK cs (K.owned ++ (B t ++ R))) (hRB : ∀ u, u ≠ t → ∀ b ∈ B u, b ∈ R)
    (hF : LOK cs' (K'.owned ++ (bt ++ R)) → Fam cs' K'.owned (put B t bt))
    (hA : AInv s'.w cs' s0.w.held) (hroot : s'.root = rootOf cs') (hmin : s'.minChunk = s.minChunk)
    (hc : s'.w.debug = s.w.debug ∧ s'.w.top = s.w.top ∧ s'.w.oracle = s.w.oracle) (hlog : LogInv s'.w.log cs')
    (hseen : ∀ c t, cs' = c :: t → ∀ v ∈ s'.seen, v ≤ c.cursor)
    (hpcs : ∀ u, u ≠ t → s'.pcs u = s.pcs u) (hbusy : ∀ u, u ≠ t → K'.busy u = K.busy u)
    (hsnap : ∀ u, u ≠ t → K'.snap u = K.snap u)
    (hL : LOK cs' (K'.owned ++ (bt ++ R)))
    (hfr : ∀ b ∈ R, ∀ x, b.Has x → s'.w.mem x = s.w.mem x)
    (hrt : s'.root = s.root ∨ ∀ u, u ≠ t → (s.pcs u).holdsR = false)
    (hlock : LockOK s'.readers s'.writer s'.pcs)
    (htok : TOK s'.w.mem s'.root (K'.snap t) (K'.busy t) (s'.pcs t) bt) : SInv s0 s' cs' K' (put B t bt) where
  arena := hA
  root := hroot
  min := hmin.trans h.min
  dbg := by rw [hmin]; exact h.dbg.of_eq hc.1 hc.2.1
  oracle := hc.2.2.trans h.oracle
  top := hc.2.1.trans h.top
  log := hlog
  seen := hseen
  fam := hF hL
  lock := hlock
  thr := by
    intro u
    by_cases hu : u = t
    · subst hu; rw [put_same]; exact htok
    · rw [put_ne _ _ hu, hpcs u hu, hbusy u hu, hsnap u hu]
      have h1 : TOK s'.w.mem s.root (K.snap u) (K.busy u) (s.pcs u) (B u) :=
        (h.thr u).frame (fun b hb => hfr b (hRB u hu b hb)) fun b hb =>
          (hR.each b (List.mem_append_right _ (List.mem_append_right _ (hRB u hu b hb)))).1
      rcases hrt with hrt | hrt
      · rw [hrt]; exact h1
      · exact h1.root (hrt u hu)

/-! ### Locks -/

theorem LockOK.same {rs wr pcs pcs'} {t : Nat} (h : LockOK rs wr pcs) (ho : ∀ u, u ≠ t → pcs' u = pcs u)
    (hr : (pcs' t).holdsR = (pcs t).holdsR) (hw : (pcs' t).holdsW = (pcs t).holdsW) : LockOK rs wr pcs' where
  nodup := h.nodup
  rd := by
    intro u
    by_cases hu : u = t
    · subst hu; rw [hr]; exact h.rd u
    · rw [ho u hu]; exact h.rd u
  wr := by
    intro u
    by_cases hu : u = t
    · subst hu; rw [hw]; exact h.wr u
    · rw [ho u hu]; exact h.wr u
  excl := h.excl

theorem LockOK.acqR {rs wr pcs pcs'} {t : Nat} (h : LockOK rs wr pcs) (ho : ∀ u, u ≠ t → pcs' u = pcs u)
    (hwn : wr = none) (h0 : (pcs t).holdsR = false) (hr : (pcs' t).holdsR = true) (hw : (pcs' t).holdsW = false) :
    LockOK (t :: rs) wr pcs' where
  nodup := by
    refine List.nodup_cons.mpr ⟨fun ht => ?_, h.nodup⟩
    rw [h.rd t, h0] at ht; cases ht
  rd := by
    intro u
    by_cases hu : u = t
    · subst hu; rw [hr]; simp
    · rw [ho u hu, ← h.rd u, List.mem_cons]
      exact ⟨fun h => h.resolve_left hu, .inr⟩
  wr := by
    intro u
    by_cases hu : u = t
    · subst hu; rw [hw, hwn]; simp
    · rw [ho u hu]; exact h.wr u
  excl := fun h' => absurd hwn h'

theorem LockOK.relR {rs wr pcs pcs'} {t : Nat} (h : LockOK rs wr pcs) (ho : ∀ u, u ≠ t → pcs' u = pcs u)
    (h0 : (pcs t).holdsR = true) (hr : (pcs' t).holdsR = false) (hw : (pcs' t).holdsW = false) :
    LockOK (rs.erase t) wr pcs' := by
  have hwn : wr = none := by
    cases hwr : wr with
    | none => rfl
    | some u =>
      have := h.excl (by rw [hwr]; simp)
      have ht := (h.rd t).mpr h0
      rw [this] at ht; cases ht
  refine ⟨h.nodup.erase _, ?_, ?_, fun h' => absurd hwn h'⟩
  · intro u
    by_cases hu : u = t
    · subst hu; rw [hr]
      simp only [Bool.false_eq_true, iff_false]
      exact fun hm => absurd hm (List.Nodup.not_mem_erase h.nodup)
    · rw [ho u hu, ← h.rd u]
      exact List.mem_erase_of_ne hu
  · intro u
    by_cases hu : u = t
    · subst hu; rw [hw, hwn]; simp
    · rw [ho u hu]; exact h.wr u

theorem LockOK.acqW {rs wr pcs pcs'} {t : Nat} (h : LockOK rs wr pcs) (ho : ∀ u, u ≠ t → pcs' u = pcs u)
    (hwn : wr = none) (hrn : rs = []) (hr : (pcs' t).holdsR = false) (hw : (pcs' t).holdsW = true) :
    LockOK rs (some t) pcs' where
  nodup := h.nodup
  rd := by
    intro u
    by_cases hu : u = t
    · subst hu; rw [hr, hrn]; simp
    · rw [ho u hu]; exact h.rd u
  wr := by
    intro u
    by_cases hu : u = t
    · subst hu; rw [hw]; simp
    · rw [ho u hu, ← h.wr u, hwn]
      simp only [Option.some.injEq, reduceCtorEq, iff_false]
      exact fun he => hu he.symm
  excl := fun _ => hrn

theorem LockOK.relW {rs wr pcs pcs'} {t : Nat} (h : LockOK rs wr pcs) (ho : ∀ u, u ≠ t → pcs' u = pcs u)
    (h0 : (pcs t).holdsW = true) (hr : (pcs' t).holdsR = false) (hw : (pcs' t).holdsW = false) :
    LockOK rs none pcs' := by
  have hwt := (h.wr t).mpr h0
  have hrn : rs = [] := h.excl (by rw [hwt]; simp)
  refine ⟨h.nodup, ?_, ?_, fun h' => absurd rfl h'⟩
  · intro u
    by_cases hu : u = t
    · subst hu; rw [hr, hrn]; simp
    · rw [ho u hu]; exact h.rd u
  · intro u
    by_cases hu : u = t
    · subst hu; rw [hw]; simp
    · rw [ho u hu, ← h.wr u, hwt]
      simp only [reduceCtorEq, Option.some.injEq, false_iff]
      exact fun he => hu he.symm

/-- While a thread holds the write lock, no other holds the read lock. -/
theorem LockOK.alone {rs wr pcs} {t : Nat} (h : LockOK rs wr pcs) (h0 : (pcs t).holdsW = true) (u : Nat) :
    (pcs u).holdsR = false := by
  have hwt := (h.wr t).mpr h0
  have hrn : rs = [] := h.excl (by rw [hwt]; simp)
  cases hu : (pcs u).holdsR with
  | false => rfl
  | true => have := (h.rd u).mpr hu; rw [hrn] at this; cases this

end Blink
