import Verif.Model.GlobalSync
import Verif.Model.Proxy
/-
  `GlobalBlinkAlloc` (src/global/sync.rs) together with the proxies that `local()` makes of its `SyncBlinkAlloc`
  (src/global/sync.rs:338-340): the system of `Model.GlobalSync` and that of `Model.Proxy` around one and the same `SyncBlinkAlloc`.

  * `local()` does not look at the mode, and the calls of a proxy go to the `SyncBlinkAlloc` in either mode
    (`LocalBlinkAlloc` refers to it directly, src/sync.rs:451-454).
  * Nothing a proxy does is counted in `allocations`.
-/
namespace Blink

/-- src/global/sync.rs:90-94 `GlobalBlinkAlloc` (`g`), with `max_local_alloc` of its `SyncBlinkAlloc` (src/sync.rs:100-104; `hist`, `view` as
in `PS`) and the proxies that exist (src/sync.rs:451-454). -/
structure GPS where
  g    : GSS
  hist : List Nat
  view : Nat → Nat
  px   : Nat → Option Proxy

/-- The `SyncBlinkAlloc` with its proxies (the field `blink` of `State`, src/global/sync.rs:14-17). -/
def GPS.ps (x : GPS) : PS := ⟨x.g.s, x.hist, x.view, x.px⟩

/-- Replace the `SyncBlinkAlloc` with its proxies (no counterpart in the source: bookkeeping). -/
def GPS.withPS (x : GPS) (p : PS) : GPS := ⟨{ x.g with s := p.s }, p.hist, p.view, p.px⟩

/-- src/global/sync.rs:200-209 `with_chunk_size_in` in the world `w`; there is no proxy, `max_local_alloc` is 0 (src/sync.rs:175-181). -/
def GPS.withChunkSize (n : Nat) (w : World) : GPS := ⟨GSS.withChunkSize n w, [0], fun _ => 0, fun _ => none⟩

/-- What can happen: something at the global allocator (src/global/sync.rs:247-295, 343-408; stores of owners of blocks, however
obtained), or something at its proxies: `local()` (src/global/sync.rs:338-340) is `.spawn`, the calls of proxies (src/sync.rs:457-567) and
the steps `.shared (.go i ch)` of the calls they make to the `SyncBlinkAlloc`, synchronisation. -/
inductive GPAct where
  | glob (a : GAct)
  | proxy (a : PAct)
deriving DecidableEq, Repr

/-- Who answers what: the global allocator (src/global/sync.rs:247-408) or a proxy (src/sync.rs:457-567). -/
inductive GPResp where
  | glob (r : GResp)
  | proxy (r : Resp)
deriving DecidableEq, Repr

/-- One step of the whole system; `none` if the action is not possible now. Thread `t` takes steps inside the `SyncBlinkAlloc` either on behalf
of its call of the global allocator (src/global/sync.rs:23, 34, 50, 65) or on behalf of its proxy (src/arena/mod.rs:196, 214). -/
def gpstep (x : GPS) : GPAct → Except Fault (Option (Option GPResp × GPS))
  | .glob a => do
    match ← gsstep x.g a with
    | none => pure none
    | some (r, g) => pure (some (r.map .glob, { x with g := g }))
  | .proxy (.shared (.go t ch)) =>
    if x.g.pcs t = .idle then do
      match ← pstep x.ps (.shared (.go t ch)) with
      | none => pure none
      | some (r, p) => pure (some (r.map .proxy, x.withPS p))
    else pure none
  | .proxy a => do
    match ← pstep x.ps a with
    | none => pure none
    | some (r, p) => pure (some (r.map .proxy, x.withPS p))

end Blink
