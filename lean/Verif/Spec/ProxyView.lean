import Verif.Spec.Proxy
/-
  The history of one proxy, as its callers see it: the calls that came back, with their responses.
-/
namespace Blink

/-- The calls of a proxy that came back, oldest first, and the one that has not come back yet. -/
structure PView where
  done : List (Op × Resp)
  wait : Option Op

/-- A call is made and comes back at once, or not. -/
def PView.call (v : PView) (op : Op) : Option Resp → PView
  | some r => ⟨v.done ++ [(op, r)], none⟩
  | none => ⟨v.done, some op⟩

/-- What happens to the history of proxy `i`. It starts anew when a proxy with that number is created. Both resets are the `reset` of
an allocator one owns. -/
def PView.next (i : Nat) (v : PView) : PAct × Option Resp → PView
  | (.spawn j _, _) => if j = i then ⟨[], none⟩ else v
  | (.allocate j l, r) => if j = i then v.call (.allocate l) r else v
  | (.resize j p old new, r) => if j = i then v.call (.resize p old new) r else v
  | (.deallocate j p n, r) => if j = i then v.call (.deallocate p n) r else v
  | (.reset j, r) => if j = i then v.call .reset r else v
  | (.resetUnchecked j, r) => if j = i then v.call .reset r else v
  | (.shared (.go j _), some r) =>
    if j = i then
      match v.wait with
      | some op => ⟨v.done ++ [(op, r)], none⟩
      | none => v
    else v
  | _ => v

/-- The history of proxy `i` since it was created. -/
def pview (i : Nat) (tr : List (PAct × Option Resp)) : PView := tr.foldl (PView.next i) ⟨[], none⟩

/-- The calls of proxy `i` that came back, with their responses, since it was created. -/
def callsOf (i : Nat) (tr : List (PAct × Option Resp)) : List (Op × Resp) := (pview i tr).done

/-- The calls of a history; stores of the callers are left out. -/
def callsIn (tr : List (Op × Resp)) : List (Op × Resp) :=
  tr.filter fun x => match x.1 with
    | .write _ _ => false
    | _ => true

/-- The block in a response. -/
def Resp.slice? : Resp → Option Slice
  | .block b => some b
  | _ => none

/-- What the shared allocator answers a request of proxy `i` for memory in the step: a block or a refusal. -/
def PS.given (ps : PS) (i : Nat) : PAct → List (Option Slice)
  | .shared (.go t ch) =>
    if t = i then
      match sstep ps.s (.go t ch), (ps.px t).map Proxy.pc with
      | .ok (some (some r, _)), some (.alloc _) => [r.slice?]
      | .ok (some (some r, _)), some (.resize _ _ _) => [r.slice?]
      | _, _ => []
    else []
  | _ => []

/-- The answers of the shared allocator to requests of proxy `i` for memory since it was created, oldest first: what `given` says along the
history from `ps` on, after `acc`. -/
def answersTo (i : Nat) : PS → List (PAct × Option Resp) → List (Option Slice) → List (Option Slice)
  | _, [], acc => acc
  | ps, (a, _) :: tr, acc =>
    match pstep ps a with
    | .ok (some (_, ps')) => answersTo i ps' tr (match a with
      | .spawn j _ => if j = i then [] else acc
      | a => acc ++ ps.given i a)
    | _ => acc

end Blink
