import Verif.Model.ClientOps
/-
Words for what the kernels of the client do.
-/
namespace Verif

/-- What happens on the server during the attempts of an update. -/
def roundEvents (table : String) (us : List (Key × Pri)) : List (List Service.Event × Try) → List Service.Event
  | [] => []
  | (pre, a) :: rest => pre ++ (if a.reaches then [.unary (.mutate table us [])] else []) ++ roundEvents table us rest

/-- Nobody else does anything on the server between the attempts. -/
def Quiet (rounds : List (List Service.Event × Try)) : Prop := ∀ x ∈ rounds, x.1 = []

end Verif
