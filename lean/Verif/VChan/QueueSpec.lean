import Verif.VChan.Model
/-! Which operations an event is about. -/
namespace Cobalt.VChan

open Chan (Tok)

/-- The operations an event is about. -/
def Ev.names : Ev → List Tok
  | .awaitR i _ _ h => .r i :: h
  | .awaitW i _ _ h => .w i :: h
  | .cancelR i | .intR i | .dropR i => [.r i]
  | .cancelW i | .intW i | .dropW i => [.w i]
  | _ => []

end Cobalt.VChan
