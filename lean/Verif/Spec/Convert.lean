import Verif.Spec.PyJson
import Verif.Spec.Serialize
import Verif.Model.Convert
/-
Specification of the format 1.1.1: when does a JSON document stand for a Python value, when for a tree.  The order of the fields of an object does not matter, other fields are allowed.
-/
namespace ITree

open Json (J PV Env SErr Style)

/-- the object `j` has the field `k` with the value `v` (None counts as missing) -/
def HasField (j : J) (k : String) (v : J) : Prop := ∃ l, j = .obj l ∧ objGet k.toList l = some v
def NoField (j : J) (k : String) : Prop := ∃ l, j = .obj l ∧ (objGet k.toList l).getD .null = .null

mutual
/-- the document `j` stands for the value -/
def ValDoc (E : Env) : PV → J → Prop
  | .none, j => j = .null
  | .bool b, j => j = .bool b
  | .int z, j => j = .int z
  | .flt t, j => j = .flt t
  | .inf, j => j = .inf
  | .ninf, j => j = .ninf
  | .nan, j => j = .nan
  | .str s, j => j = .str s
  | .seq (.foreign _) _, _ => False
  | .seq .set l, j => (∃ js, HasField j "TP" (.str "ITER:set".toList) ∧ HasField j "DC" (.arr js) ∧ ValDocL E l js) ∧ (∀ x ∈ l, Json.hashable x = true) ∧ Json.Distinct E.eq l
  | .seq .frozenset l, j => (∃ js, HasField j "TP" (.str "ITER:frozenset".toList) ∧ HasField j "DC" (.arr js) ∧ ValDocL E l js) ∧ (∀ x ∈ l, Json.hashable x = true) ∧ Json.Distinct E.eq l
  | .seq .list l, j => ∃ js, HasField j "TP" (.str "ITER:list".toList) ∧ HasField j "DC" (.arr js) ∧ ValDocL E l js
  | .seq .tuple l, j => ∃ js, HasField j "TP" (.str "ITER:tuple".toList) ∧ HasField j "DC" (.arr js) ∧ ValDocL E l js
  | .seq .deque l, j => ∃ js, HasField j "TP" (.str "ITER:deque".toList) ∧ HasField j "DC" (.arr js) ∧ ValDocL E l js
  | .map n l, j => (∃ js, ((n = "dict".toList ∧ (HasField j "TP" (.str "D".toList) ∨ HasField j "TP" (.str "d".toList) ∨ HasField j "TP" (.str "DR".toList))) ∨
      (n = "OrderedDict".toList ∧ HasField j "TP" (.str "OD".toList))) ∧ HasField j "DC" (.arr js) ∧ ValDocM E l js) ∧ (∀ p ∈ l, Json.hashable p.1 = true) ∧ Json.Distinct E.eq (l.map Prod.fst)
  | _, _ => False
def ValDocL (E : Env) : List PV → List J → Prop
  | [], js => js = []
  | v :: vs, js => ∃ j r, js = j :: r ∧ ValDoc E v j ∧ ValDocL E vs r
def ValDocM (E : Env) : List (PV × PV) → List J → Prop
  | [], js => js = []
  | (k, v) :: ps, js => ∃ a b r, js = .arr [a, b] :: r ∧ ValDoc E k a ∧ ValDoc E v b ∧ ValDocM E ps r
end

/-- the document stands for the file of a link: null (the tree itself) or the name -/
def FileDoc : Option String → J → Prop
  | none, j => j = .null
  | some f, j => j = .str f.toList
/-- the document stands for the path of a link: a list, in the notation for lists or as plain JSON list -/
def PathDoc (N : Names) (E : Env) (path : List Tag) (j : J) : Prop :=
  ValDoc E (.seq .list (path.map N.tagPV)) j ∨ ∃ js, j = .arr js ∧ Json.rawL js = path.map N.tagPV

mutual
/-- the document `j` stands for the tree: type 'iT' (no flags) or 'iTRO' (read-only tree and value), tag, data, children – or with a link, type 'iT' or 'iTl' (a link root that is not loaded) – or type 'iTPH'
(a placeholder: only a tag) -/
def TreeDoc (N : Names) (E : Env) : Shape → J → Prop
  | .node t v f l ks, j => ∃ jt, HasField j "TG" jt ∧ ValDoc E (N.tagPV t) jt ∧
    ((HasField j "TP" (.str "iTPH".toList) ∧ v = .noValue ∧ ks = [] ∧ f = Flags.placeholder ∧ l = none) ∨
     (((HasField j "TP" (.str "iT".toList) ∧ f = 0#6 ∨ HasField j "TP" (.str "iTRO".toList) ∧ f = Flags.readOnlyTree ||| Flags.readOnlyValue) ∧ NoField j "LK" ∧ l = none ∨
       (HasField j "TP" (.str "iT".toList) ∨ HasField j "TP" (.str "iTl".toList)) ∧ f = Flags.linkRoot ∧
         ∃ file path jf jp, l = some { file := file, path := path } ∧ HasField j "LK" (.arr [jf, jp]) ∧ FileDoc file jf ∧ PathDoc N E path jp) ∧
      ∃ jv js, HasField j "DT" jv ∧ ValDoc E (N.valPV v) jv ∧ HasField j "iT" (.arr js) ∧ TreeDocL N E ks js))
def TreeDocL (N : Names) (E : Env) : List Shape → List J → Prop
  | [], js => js = []
  | k :: ks, js => ∃ j r, js = j :: r ∧ TreeDoc N E k j ∧ TreeDocL N E ks r
end

end ITree
