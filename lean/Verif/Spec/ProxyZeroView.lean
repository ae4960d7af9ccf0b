import Verif.Spec.ProxyZero
import Verif.Spec.ProxyView
import Verif.Spec.ZeroContract
/-
  The history of one proxy as its callers see it, `allocate_zeroed` and `grow_zeroed` included: the calls that came back, with their responses.
-/
namespace Blink

/-- What happens to the history of proxy `i`: as `PView.next`, a zeroed call being one call with one response. -/
def PView.znext (i : Nat) (v : PView) : ZPAct × Option Resp → PView
  | (.base a, r) => v.next i (a, r)
  | (.zcall j job, r) => if j = i then v.call (ZCall.zeroed job).op r else v
  | (.zgo j, some r) =>
    if j = i then
      match v.wait with
      | some op => ⟨v.done ++ [(op, r)], none⟩
      | none => v
    else v
  | (.zgo _, none) => v

/-- The history of proxy `i` since it was created. -/
def zpview (i : Nat) (tr : List (ZPAct × Option Resp)) : PView := tr.foldl (PView.znext i) ⟨[], none⟩

end Blink
