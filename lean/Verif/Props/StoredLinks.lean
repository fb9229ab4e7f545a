import Verif.Props.DumpFilter
import Verif.Props.FindLink
/-
C33: dumps of loaded links.
-/
namespace ITree

open Json (Env Supported)

/-- tags and values every converter environment without orjson supports -/
def plainTag : Tag → Bool | .str _ => true | .int _ => true | .noTag => true | _ => false
def plainVal : Val → Bool | .str _ => true | .int _ => true | .noValue => true | _ => false
theorem plainTag_ok {t : Tag} (e : plainTag t = true) : Supported envL (stdNames.tagPV t) := by
  cases t <;> simp [plainTag] at e <;> simp [stdNames, tagObj, Supported, envL, envJ]
theorem plainVal_ok {v : Val} (e : plainVal v = true) : Supported envL (stdNames.valPV v) := by
  cases v <;> simp [plainVal] at e <;> simp [stdNames, valObj, Supported, envL, envJ]

/-- below the root 0: the item 1 with the children 2, 3, 4 (tags a, b, a), and the link root 5, which refers to the item 1 -/
def srcDemo : Heap := run ms0 Heap.empty [.new (.str "r") .noValue [] 0#6, .new (.str "S") .noValue [] 0#6, .append 0 (.item 1), .new (.str "a") (.int 1) [] 0#6, .new (.str "b") (.int 2) [] 0#6, .new (.str "a") (.int 3) [] 0#6,
  .append 1 (.item 2), .append 1 (.item 3), .append 1 (.item 4), .newLink (.str "L") .noValue [] 0#6 none [.pair (.str "S") (.int 0)], .append 0 (.item 5)]
theorem srcDemo_grown : BuiltUp ms0 srcDemo := grown_run _ .empty (by decide +kernel) (by decide +kernel)

/-- the same after `load_links()` of the link root 5: it has the linked children 6, 7, 8 -/
def loadedDemo : Heap := (loadLinks (linkEnv noFiles) false 201 srcDemo 5).1

theorem loadedDemo_ok : WF loadedDemo ∧ Forest loadedDemo ∧ (loadLinks (linkEnv noFiles) false 201 srcDemo 5).2 = .ok true := by
  have W := srcDemo_grown.tidy.reach.core.wf
  have F := srcDemo_grown.tidy.reach.core.forest
  have hf : (linkEnv noFiles).find srcDemo 5 = (srcDemo, .ok 1) :=
    show getTarget noFiles srcDemo 5 = (srcDemo, .ok 1) from C76_tag_idx_path srcDemo_grown noFiles (p := 5) (s := 1) (lk := { path := [.pair (.str "S") (.int 0)] }) (by decide +kernel) (Or.inl rfl) (by decide +kernel) (ps := [(.str "S", 0)]) (by decide +kernel) rfl (by decide +kernel)
  obtain ⟨h', e1, e2, e3, -⟩ := C74_first_load_partial (linkEnv noFiles) false 200 srcDemo srcDemo 5 1 { path := [.pair (.str "S") (.int 0)] } (by decide +kernel) (Or.inr rfl) hf
    ⟨W, F, by decide +kernel, by decide +kernel, by decide +kernel, fun c hc => by
      obtain ⟨m, e, -⟩ := C18_grown srcDemo_grown hc
      exact ⟨_, _, by rw [e]⟩, by decide +kernel⟩ (by decide +kernel)
  have e : loadedDemo = h' := by rw [loadedDemo, e1]
  rw [e, e1]
  exact ⟨e2, e3, rfl⟩

/-- all items of the loaded demo tree can be stored -/
theorem loadedDemo_storable : ∀ y, Below loadedDemo 0 y → StorableAt stdNames envL loadedDemo y := by
  refine below_of_tree loadedDemo_ok.1 loadedDemo_ok.2.1 ?_
  have a : ∀ y ∈ (loadedDemo.tree 0).ids, plainTag (loadedDemo.tag y) = true ∧ plainVal (loadedDemo.node y).value = true ∧ (loadedDemo.isLinkRoot y = true → (loadedDemo.flags y).has Flags.loadLinks = false ∧
      ((loadedDemo.node y).link.map fun l => (l.file, l.path)) = some (none, [.pair (.str "S") (.int 0)]) ∧ ∀ c ∈ loadedDemo.kids y, plainTag (loadedDemo.tag c) = true) := by decide +kernel
  intro y hy
  obtain ⟨a1, a2, a3⟩ := a y hy
  refine ⟨plainTag_ok a1, plainVal_ok a2, fun hr => ?_⟩
  obtain ⟨b1, b2, b3⟩ := a3 hr
  refine ⟨b1, ?_, fun c hc => plainTag_ok (b3 c hc), fun n _ => plainVal_ok rfl⟩
  obtain ⟨lk, l1, l2⟩ := Option.map_eq_some_iff.1 b2
  refine ⟨lk, l1, ?_⟩
  simp only [Prod.mk.injEq] at l2
  simp [linkPV, filePV, l2.1, l2.2, Supported, Json.SupportedL, envL, envJ, stdNames, tagObj]

/-- a number as value -/
def valNum : Val → Option Int | .int n => some n | _ => none

mutual
/-- tags, values (numbers only) and flags of the items, in deep order -/
def Shape.marks : Shape → List (Tag × Option Int × Flags)
  | .node t v f _ ks => (t, valNum v, f) :: Shape.marksL ks
def Shape.marksL : List Shape → List (Tag × Option Int × Flags)
  | [] => []
  | k :: ks => k.marks ++ Shape.marksL ks
end

/-- Disagreement: a loaded link is not stored by its placeholders. Of the linked children of the link root L the first and the third (tag a) are stored in full, as linked items, with the values they had, and only the second (tag b) by a placeholder;
loading the dump gives linked items without a source.  (When the links are loaded again these are taken for local items and hide the linked ones: `C46_reload_wrong`.) -/
theorem C33_linked_stored_wrong : (loadedDemo.kids 5).map (fun c => (loadedDemo.tag c, (loadedDemo.flags c).has Flags.linked)) = [(.str "a", true), (.str "b", true), (.str "a", true)] ∧
    ∀ (sha : List Char → List Char) (st : Json.Style) (typeName : List Char) (addHeader calcHash chk : Bool),
      ∃ text, Delivers (fun n => dumpsText sha n stdNames envL st typeName addHeader calcHash loadedDemo 0) (.ok text) ∧
        ∃ h3 y, loadsText heapBuilder sha stdNames envL chk Heap.empty text = (h3, .ok y) ∧
          (h3.tree y).shape.marks = [(.str "r", none, 0#6), (.str "S", none, 0#6), (.str "a", some 1, 0#6), (.str "b", some 2, 0#6), (.str "a", some 3, 0#6),
            (.str "L", none, Flags.linkRoot), (.str "a", some 1, Flags.linked), (.str "b", some 0, Flags.placeholder), (.str "a", some 3, Flags.linked)] := by
  refine ⟨by decide +kernel, fun sha st typeName addHeader calcHash chk => ?_⟩
  obtain ⟨text, D, h3, y, e1, -, -, -, -, e6⟩ := C33_stored_partial (ms2 := ms0) loadedDemo_ok.1 loadedDemo_ok.2.1 .empty sha stdNames envL st typeName addHeader calcHash chk (x := 0) (by decide +kernel) loadedDemo_storable
  refine ⟨text, D, h3, y, e1, ?_⟩
  rw [e6]
  decide +kernel

end ITree
