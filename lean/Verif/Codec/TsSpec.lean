import Verif.Codec.Spec
import Verif.Codec.Ts
/-! Which values a JavaScript object can represent: no string starts with a byte
order mark (`TextDecoder` removes it) and no object has the key `__proto__`. -/
namespace Verif.Codec.Ts
open Verif.Codec

mutual
def JsSafeJ : JsJson → Prop
  | .str s => ¬ bom <+: strBytes s
  | .list l => JsSafeJL l
  | .obj l => JsSafeJO l
  | _ => True
def JsSafeJL : List JsJson → Prop
  | [] => True
  | x :: xs => JsSafeJ x ∧ JsSafeJL xs
def JsSafeJO : List (String × JsJson) → Prop
  | [] => True
  | (k, x) :: xs => (¬ bom <+: strBytes k) ∧ k ≠ "__proto__" ∧ JsSafeJ x ∧ JsSafeJO xs
end

mutual
def JsSafe : JsValue → Prop
  | .str s => ¬ bom <+: strBytes s
  | .list l => JsSafeL l
  | .obj l => JsSafeO l
  | .json j => JsSafeJ j
  | _ => True
def JsSafeL : List JsValue → Prop
  | [] => True
  | x :: xs => JsSafe x ∧ JsSafeL xs
def JsSafeO : List (String × JsValue) → Prop
  | [] => True
  | (k, x) :: xs => (¬ bom <+: strBytes k) ∧ k ≠ "__proto__" ∧ JsSafe x ∧ JsSafeO xs
end

end Verif.Codec.Ts
