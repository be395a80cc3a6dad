import Verif.Huge.Model
/-! Values of type `Huge` a client can obtain through the public interface of huge.hpp. Used to
show that the inputs on which a property fails are not artefacts of the model. -/
namespace Symxx.Huge

/-- `Reachable h`: some finite sequence of constructor and operator calls of class `Huge`
(huge.hpp 497-972), none of which raises or is undefined, produces `h`. -/
inductive Reachable : Huge → Prop
  | str {s h} : ofString s = .ok h → Reachable h
  | int {t v h} : ofInt t v = .ok h → Reachable h
  | add {a b} : Reachable a → Reachable b → Reachable (add a b)
  | sub {a b} : Reachable a → Reachable b → Reachable (sub a b)
  | mul {a b h} : Reachable a → Reachable b → mul a b = .ok h → Reachable h
  | div {a b h} : Reachable a → Reachable b → div a b = .ok h → Reachable h
  | mod {a b h} : Reachable a → Reachable b → mod a b = .ok h → Reachable h
  | gcd {a b h} : Reachable a → Reachable b → gcd a b = .ok h → Reachable h
  | neg {a} : Reachable a → Reachable (neg a)
  | abs {a} : Reachable a → Reachable (abs a)

end Symxx.Huge
