import Verif.Proofs.Json
import Verif.Model.PyJson
/-
Specification: which Python values the serializer supports.
-/
namespace Json

/-- pairwise different elements -/
def Distinct (eq : PV → PV → Bool) (l : List PV) : Prop := l.Pairwise fun a b => eq a b = false

mutual
/-- Values that survive: None, bool, str, bytes, the iTree constants; ints (with orjson only 64 bit) and floats (with orjson only finite ones); lists, tuples, deques; sets and frozensets (their
elements are hashable and pairwise different, as in any Python set); dicts and OrderedDicts (hashable, pairwise different keys); objects with `get_init_args()` whose class can be found and gives
the same object again for these arguments. -/
def Supported (E : Env) : PV → Prop
  | .none => True
  | .bool _ => True
  | .int z => E.orjson = true → -9223372036854775808 ≤ z ∧ z ≤ 18446744073709551615
  | .flt t => fltTok t
  | .inf => E.orjson = false
  | .ninf => E.orjson = false
  | .nan => E.orjson = false
  | .str _ => True
  | .bytes l => ∀ n ∈ l, n < 256
  | .const k => k < 4
  | .cls _ => False
  | .seq .list l => SupportedL E l
  | .seq .tuple l => SupportedL E l
  | .seq .deque l => SupportedL E l
  | .seq .set l => SupportedL E l ∧ (∀ x ∈ l, hashable x = true) ∧ Distinct E.eq l
  | .seq .frozenset l => SupportedL E l ∧ (∀ x ∈ l, hashable x = true) ∧ Distinct E.eq l
  | .seq (.foreign _) _ => False
  | .map n l => (n = "dict".toList ∨ n = "OrderedDict".toList) ∧ SupportedM E l ∧ (∀ p ∈ l, hashable p.1 = true) ∧ Distinct E.eq (l.map Prod.fst)
  | .init c m t args => SupportedL E args ∧ E.build c m args = .ok (.init c m t args)
  | .obj _ => False
def SupportedL (E : Env) : List PV → Prop
  | [] => True
  | x :: xs => Supported E x ∧ SupportedL E xs
def SupportedM (E : Env) : List (PV × PV) → Prop
  | [] => True
  | (k, v) :: xs => Supported E k ∧ Supported E v ∧ SupportedM E xs
end

end Json
