import Verif.Proofs.AnyText
import Verif.Props.Files
/-
C82: loading any text or file – damaged, of any content, failing half-way – keeps the trees consistent and touches no existing item.
-/
namespace ITree

open Json (Env J)

/-- the text has no link root with the flag LOAD_LINKS, whose links the constructor would load at once (not modelled here) -/
def TextQuiet (sha : List Char → List Char) (N : Names) (E : Env) (checkHash : Bool) (text : List Char) : Prop :=
  ∀ rows r, loadCheck sha checkHash text = .ok rows → J.arr r ∈ rows → RowOK N E QuietArgs r

theorem RowOK.all {N : Names} {E : Env} (r : List J) : RowOK N E (fun _ _ => True) r := ⟨fun _ _ _ _ _ => trivial, fun _ _ _ _ _ => trivial⟩

/-- the objects that exist are separated from those to come -/
theorem Tidy.olds {ms : ModelSet} {h : Heap} (H : Tidy ms h) : Sep (fun i => i < h.next) True h := by
  have W := H.inv.1.wf
  refine ⟨fun i hi => hi, fun i hi => ?_⟩
  obtain ⟨a, b⟩ := W.fresh i (by omega)
  refine ⟨?_, ?_, fun F hF => ?_, fun F hF => ?_, fun l y e1 e2 => ?_⟩
  · have a : (h.node i).items = [] := a
    rw [a]; simp
  · rw [b]; simp
  · rw [W.fams_nil i F a hF]; exact .nil
  · obtain rfl := H.staleNil hF; exact ⟨.inl trivial, .nil⟩
  · have := H.inv.1.nocov i
    simp [coverOf, e1, e2] at this

/-- C82. Whatever the text is – not JSON, with a wrong hash, with rows in any order and of any depth, failing after some items were made –: the state after `loads` is a consistent state (all theorems about reachable states hold in
it), no item that existed before has another tag, value, link, parent, other flags or children, and the item delivered, if any, is new, as is everything below it. (partial: texts without link roots that load their links at once.) -/
theorem C82_any_text_partial {ms : ModelSet} {h : Heap} (H : Reach ms h) (sha : List Char → List Char) (N : Names) (E : Env) (checkHash : Bool) (text : List Char) (q : TextQuiet sha N E checkHash text) :
    Reach ms (loadsText heapBuilder sha N E checkHash h text).1 ∧ Unchanged h (loadsText heapBuilder sha N E checkHash h text).1 ∧
    ∀ i, (loadsText heapBuilder sha N E checkHash h text).2 = .ok i →
      i < (loadsText heapBuilder sha N E checkHash h text).1.next ∧ ∀ y, Below (loadsText heapBuilder sha N E checkHash h text).1 i y → h.next ≤ y := by
  have A := (Kept0.makes ms h).text ⟨H, .refl h _ _⟩ q
  exact ⟨A.1.reach, A.1.same, fun i e => ⟨(A.2 i e).lt, (A.2 i e).below⟩⟩

/-- C82. `loads` of any text at all writes nothing into an existing object, not even cached positions, and never delivers an existing item. (partial: histories without `sort` and `clear`.) -/
theorem C82_untouched_partial {ms : ModelSet} {h : Heap} (H : Tidy ms h) (sha : List Char → List Char) (N : Names) (E : Env) (checkHash : Bool) (text : List Char) :
    (∀ i, i < h.next → (loadsText heapBuilder sha N E checkHash h text).1.node i = h.node i) ∧
    ∀ i, (loadsText heapBuilder sha N E checkHash h text).2 = .ok i → h.next ≤ i := by
  have A := (NI.makes (N := fun i => i < h.next) (Q := True) h).text (.refl H.olds) (sha := sha) (N := N) (E := E) (c := checkHash) (text := text) fun _ r _ _ => .all r
  exact ⟨A.1.same, fun i e => Nat.le_of_not_lt (A.2 i e)⟩

/-- C82. The same for `load` of any file of any disk. -/
theorem C82_any_file_partial {ms : ModelSet} {h : Heap} (H : Reach ms h) (gz : Gzip) (sha : List Char → List Char) (N : Names) (E : Env) (checkHash : Bool) (d : Disk) (path : String)
    (q : ∀ b, d.file path = some b → TextQuiet sha N E checkHash ((gz.unpack b).getD b)) :
    Reach ms (loadFile heapBuilder gz sha N E checkHash h d path).1 ∧ Unchanged h (loadFile heapBuilder gz sha N E checkHash h d path).1 ∧
    ∀ i, (loadFile heapBuilder gz sha N E checkHash h d path).2 = .ok i →
      i < (loadFile heapBuilder gz sha N E checkHash h d path).1.next ∧ ∀ y, Below (loadFile heapBuilder gz sha N E checkHash h d path).1 i y → h.next ≤ y := by
  unfold loadFile
  split
  · exact ⟨H, .refl h _ _, fun i e => by cases e⟩
  · next b hb =>
    have A := C82_any_text_partial H sha N E checkHash _ (q b hb)
    dsimp only
    generalize loadsText heapBuilder sha N E checkHash h ((gz.unpack b).getD b) = r at A ⊢
    obtain ⟨h', o⟩ := r
    refine ⟨A.1, A.2.1, fun i e => ?_⟩
    cases o with
    | error e' => cases e
    | ok j => cases e; exact A.2.2 _ rfl

/-- a text without header, and one whose last row jumps two levels down, after the items of the deeper levels were made -/
def goodText : List Char := "[[0,\"\",\"r\",1],[1,\"\",\"a\",2],[1,\"\",\"b\",3]]".toList
def badText : List Char := "[[0,\"\",\"r\",1,null],[1,\"\",\"a\",2,null],[2,\"\",\"b\",3],[1,\"\",\"c\",3],[4,\"\",\"d\",3]]".toList

/-- does a result carry an item -/
def Loaded {α β : Type} : Except α β → Bool
  | .ok _ => true
  | .error _ => false

/-- both texts can be met: the good one makes three items, the bad one two before it fails -/
example : TextQuiet (fun t => t) stdNames envJ true goodText ∧ TextQuiet (fun t => t) stdNames envJ true badText ∧
    (loadsText heapBuilder (fun t => t) stdNames envJ true demo goodText).1.next = 10 ∧ Loaded (loadsText heapBuilder (fun t => t) stdNames envJ true demo goodText).2 = true ∧
    (loadsText heapBuilder (fun t => t) stdNames envJ true demo badText).1.next = 9 ∧ Loaded (loadsText heapBuilder (fun t => t) stdNames envJ true demo badText).2 = false ∧ demo.next = 7 := by
  have no : ∀ text : List Char, (match loadCheck (fun t => t) true text with
      | .ok rows => rows.all fun | .arr r => (match leafArgs stdNames envJ r with | .ok (_, _, _, lk) => !lk.isSome | _ => true) && (match mainArgs stdNames envJ r with | .ok (_, _, _, lk) => !lk.isSome | _ => true) | _ => true
      | .error _ => true) = true → TextQuiet (fun t => t) stdNames envJ true text := by
    intro text H rows r e hr
    rw [e] at H
    have H := List.all_eq_true.1 H _ hr
    simp only [Bool.and_eq_true] at H
    refine ⟨fun t v f lk e' => ?_, fun t v f lk e' => ?_⟩
    · have H := H.1; rw [e'] at H
      intro hs; simp [hs] at H
    · have H := H.2; rw [e'] at H
      intro hs; simp [hs] at H
  exact ⟨no _ (by decide +kernel), no _ (by decide +kernel), by decide +kernel, by decide +kernel, by decide +kernel, by decide +kernel, by decide⟩


end ITree
