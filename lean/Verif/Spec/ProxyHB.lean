import Verif.Spec.HB
import Verif.Spec.ProxyTouch
/-
  Happens-before for a `SyncBlinkAlloc` used directly and through `LocalBlinkAlloc` proxies. As in `Verif/Spec/HB.lean` the only edges are
  program order, the lock of the shared allocator, and what the callers synchronise among themselves.

  Proxy `i` is used by identity `i`. Moving the proxy to another thread, or using several proxies from one thread, is `sync`.
-/
namespace Blink

/-- What the code `f` does touches the byte at `x`: it makes a difference whether another byte is put there before or after. -/
def TouchesBy (f : PS → PRes) (ps : PS) (x : Nat) : Prop := ∃ v, f (ps.poke x v) ≠ ppokeRes x v (f ps)

/-- What the code `f` does writes the byte at `x`: some byte put there before is not there after. -/
def WritesBy (f : PS → PRes) (ps : PS) (x : Nat) : Prop := ∃ v r ps', f (ps.poke x v) = .ok (some (r, ps')) ∧ ps'.s.w.mem x ≠ v

/-- The system with another pointer in `Inner::root` of the shared allocator. -/
def PS.reroot (ps : PS) (v : Nat) : PS := { ps with s := ps.s.reroot v }

/-- The outcome of a step, with another pointer in `Inner::root`. -/
def prerootRes (v : Nat) : PRes → PRes
  | .ok (some (r, ps)) => .ok (some (r, ps.reroot v))
  | o => o

/-- What the code `f` does touches `Inner::root` of the shared allocator. -/
def TouchesRootBy (f : PS → PRes) (ps : PS) : Prop := ∃ v, f (ps.reroot v) ≠ prerootRes v (f ps)

/-- The step returns a block containing `x` to the caller of a proxy. -/
def PGives (K : PBook) (r : Option Resp) (x : Nat) : PAct → Prop
  | .allocate _ l => ∃ v, r = some v ∧ ∃ b ∈ pgets (.allocate l) none v, b.Has x
  | .resize i p old new => ∃ v ob, r = some v ∧ ob ∈ K.led i ∧ ob.Fits p old ∧ ∃ b ∈ pgets (.resize p old new) (some ob) v, b.Has x
  | .shared (.go t _) => ∃ c ob v, K.pbusy t = some (c, ob) ∧ r = some v ∧ ∃ b ∈ pgets c ob v, b.Has x
  | _ => False

/-- The event in which identity `i` executes code `f` of its proxy, which accesses memory without any atomic operation or lock
(`ArenaLocal` keeps its cursor in a `Cell`, src/arena/local.rs:3, src/arena/mod.rs:71-118) and comes back with response `r`, giving out the bytes `G`. -/
structure HB.Own (h : HB) (i : Nat) (f : PS → PRes) (ps : PS) (G : Nat → Prop) (r : Option Resp) (h' : HB) : Prop where
  clock : h'.clock = h.clock + 1
  view : ∀ u e, h'.view u e ↔ (h.view u e ∨ u = i ∧ e = h.clock)
  past : ∀ n e, h'.past n e ↔ if n = h.clock then h.view i e else h.past n e
  lockR : ∀ e, h'.lockR e ↔ h.lockR e
  lockW : ∀ e, h'.lockW e ↔ h.lockW e
  reads : ∀ x e, h'.reads x e ↔ (h.reads x e ∨ e = h.clock ∧ TouchesBy f ps x)
  writes : ∀ x e, h'.writes x e ↔ (h.writes x e ∨ e = h.clock ∧ WritesBy f ps x)
  atoms : ∀ x e, h'.atoms x e ↔ h.atoms x e
  rootR : ∀ e, h'.rootR e ↔ (h.rootR e ∨ e = h.clock ∧ TouchesRootBy f ps)
  rootW : ∀ e, h'.rootW e ↔ (h.rootW e ∨ e = h.clock ∧ TouchesRootBy f ps)
  mine : ∀ x e, h'.mine x e ↔ h.mine x e
  since : ∀ x, (G x → h'.since x = h.clock) ∧ (¬ G x → h'.since x = h.since x)
  rets : ∀ e, h'.rets e ↔ (h.rets e ∨ e = h.clock ∧ r ≠ none)
  epoch : h'.epoch = h.epoch

/-- What callers of proxies must see to: a proxy is created by somebody who got hold of the shared allocator after it was created or reset,
blocks are handed back only when all accesses to them happen before, and so are those given up by a reset of the proxy. Dropping a proxy
requires nothing: its blocks are not touched (src/sync.rs:459-465), and their memory is not given out again before the shared allocator is reset. -/
def HB.PDuty (h : HB) (K : PBook) : PAct → Prop
  | .spawn i _ => h.view i h.epoch
  | .resize i p old _ => ∀ b ∈ K.led i, b.Fits p old → ∀ x, b.Has x → h.Owns i x true
  | .deallocate i p n => ∀ b ∈ K.led i, (b.addr = p ∧ b.size ≤ n ∧ n ≤ b.len) → ∀ x, b.Has x → h.Owns i x true
  | .reset i | .resetUnchecked i => ∀ b ∈ K.led i, ∀ x, b.Has x → h.Owns i x true
  | _ => True

/-- In this step the shared allocator answers a proxy. -/
def PS.Answers (ps : PS) (t : Nat) (ch : Choice) (p : Proxy) (v : Resp) (s' : SS) : Prop :=
  ps.px t = some p ∧ p.pc ≠ .idle ∧ sstep ps.s (.go t ch) = .ok (some (some v, s'))

/-- Histories of the system together with their happens-before relation. When the shared allocator answers a proxy there are two events:
the return of the call, where the lock is left, and what the proxy does with the answer. `tell` is `sync` without its effect on the values of
`max_local_alloc` that may be read: these need not be followed up to here, and nothing below depends on them. -/
inductive PHRun (p0 : PS) (t0 : Nat) : PS → PBook → HB → Prop
  | start : PHRun p0 t0 p0 PBook.empty (HB.start t0)
  | shared {ps K h t a r ps' K' h'} (hr : PHRun p0 t0 ps K h) (hl : PLegal K (.shared a)) (hb : a.By t) (hd : h.Duty K.direct t a)
      (hn : ∀ ch p v s', a = .go t ch → ¬ ps.Answers t ch p v s')
      (hs : pstep ps (.shared a) = .ok (some (r, ps'))) (ha : PAfter ps.s.w.mem K (.shared a) r K')
      (hh : h.Step ps.s K.direct t a r ps'.s h') : PHRun p0 t0 ps' K' h'
  | back {ps K h t ch p v s1 h1 r ps' K' h'} (hr : PHRun p0 t0 ps K h) (hv : ps.Answers t ch p v s1)
      (hh1 : h.Step ps.s K.direct t (.go t ch) none s1 h1)
      (hs : PS.resume { ps with s := s1 } t p.a v p.pc = .ok (some (r, ps'))) (ha : PAfter ps.s.w.mem K (.shared (.go t ch)) r K')
      (hh : h1.Own t (fun q => q.resume t p.a v p.pc) { ps with s := s1 } (fun x => PGives K r x (.shared (.go t ch))) r h') :
      PHRun p0 t0 ps' K' h'
  | own {ps K h i a r ps' K' h'} (hr : PHRun p0 t0 ps K h) (hl : PLegal K a) (hi : a.proxy = some i) (hd : h.PDuty K a)
      (hs : pstep ps a = .ok (some (r, ps'))) (ha : PAfter ps.s.w.mem K a r K')
      (hh : h.Own i (fun q => pstep q a) ps (fun x => PGives K r x a) r h') : PHRun p0 t0 ps' K' h'
  | spawn {ps K h i k r ps' K'} (hr : PHRun p0 t0 ps K h) (hl : PLegal K (.spawn i k)) (hd : h.PDuty K (.spawn i k))
      (hs : pstep ps (.spawn i k) = .ok (some (r, ps'))) (ha : PAfter ps.s.w.mem K (.spawn i k) r K') : PHRun p0 t0 ps' K' h
  | updateMax {ps K h t v r ps' K'} (hr : PHRun p0 t0 ps K h) (hl : PLegal K (.updateMax t v))
      (hs : pstep ps (.updateMax t v) = .ok (some (r, ps'))) (ha : PAfter ps.s.w.mem K (.updateMax t v) r K') : PHRun p0 t0 ps' K' h
  | sync {ps K h r ps' K'} (hr : PHRun p0 t0 ps K h) (t u : Nat)
      (hs : pstep ps (.sync t u) = .ok (some (r, ps'))) (ha : PAfter ps.s.w.mem K (.sync t u) r K') : PHRun p0 t0 ps' K' (h.sync t u)
  | tell {ps K h} (hr : PHRun p0 t0 ps K h) (t u : Nat) : PHRun p0 t0 ps K (h.sync t u)
  | read {ps K h t x b} (hr : PHRun p0 t0 ps K h) (ho : b ∈ K.direct.owned ∨ ∃ i, b ∈ K.led i) (hx : b.Has x) (hd : h.Owns t x false) :
      PHRun p0 t0 ps K (h.read t x)

/-- `ps` is reached from the fresh allocator `p0` created by `t0`, with book `K` and happens-before `h`. -/
def PHReach (p0 : PS) (t0 : Nat) (ps : PS) (K : PBook) (h : HB) : Prop := PStart p0 ∧ PHRun p0 t0 ps K h

end Blink
