import Verif.Seeds.Model

/-!
# What repeating a run means
-/

namespace Verif.Seeds

variable {C K E G : Type}

/-- A result: the number of loops reported (or the exception) and the object after the call. -/
def Shown (r : Except (Exc E) Nat × Obj C × Heap G) : Except (Exc E) Nat × C := (r.1, r.2.1.clu)

/-- Every object of the program holds a generator that exists. -/
def Valid (s : Session C G) : Prop := ∀ x ∈ s.objs, x.ref < s.heap.next

/-- The command neither uses the object number `i` nor the generator `r`. -/
def Elsewhere (i r : Nat) : Cmd C K E G → Prop
  | .state _ _ => True
  | .reseed r' _ => r' ≠ r
  | .draw r' _ => r' ≠ r
  | .make _ _ st _ => st ≠ some r
  | .find j _ _ _ => j ≠ i

end Verif.Seeds
