import Verif.Proofs.Convert
import Verif.Props.Serialize
/-
C72: converting files of version 1.1.1.
-/
namespace ITree

open Json (J PV Env SErr Style)

/-- C72 (partial: items with links must not be read-only; see the disagreements below). A file of version 1.1.1 – header without `*`, separator, data without separator; the hash of the header fits if it is checked – whose data section is a
document that stands for the tree `S` is converted to a new parentless tree of new items with the tags, values, order, nesting and links (file and path; not loaded) of `S`; the read-only-tree flag of an item is also set in everything below it; nothing
existing changes. (The recursion limit `n` has to be large enough.) -/
theorem C72_convert_partial {ms : ModelSet} {h : Heap} (H : Reach ms h) (sha1 : List Char → List Char) (N : Names) (E : Env) (chk : Bool) {hd dt : List Char} {o : List (List Char × J)} {j : J} {S : Shape}
    (h1 : '*' ∉ hd) (h2 : ¬ "}***DT***".toList <:+: dt) (hh : Json.loads (hd ++ ['}']) = some (.obj o)) (hv : objGet "VERSION".toList o = some (.str "1.1.1".toList))
    (hc : chk = true → ∀ d, objGet "HASH".toList o = some d → d = .str (sha1 dt)) (hj : Json.loads dt = some j) (hS : TreeDoc N E S j) :
    ∃ n0, ∀ n, n0 ≤ n → ∃ h3 y, convertOld heapBuilder N E n sha1 chk h (hd ++ ("}***DT***".toList ++ dt)) = (h3, .ok (.item y)) ∧ Reach ms h3 ∧ Unchanged h h3 ∧ h3.par y = none ∧
      (∀ i, Below h3 y i → h.next ≤ i) ∧ (h3.tree y).shape = S.restored := by
  obtain ⟨n0, D⟩ := decTree (made_law ms h) S j hS
  refine ⟨n0, fun n hn => ?_⟩
  obtain ⟨h3, y, e, l2⟩ := D n hn h [] (Made.start H)
  have ck : oldCheck sha1 chk (hd ++ ("}***DT***".toList ++ dt)) = .ok j := by
    have sp := split_old hd dt h1 h2
    unfold oldSep at sp
    unfold oldCheck oldSep
    rw [sp]
    simp only [hh, hv, hj]
    rw [if_neg (by simp)]
    cases chk with
    | false => simp
    | true =>
      cases g : objGet "HASH".toList o with
      | none => simp
      | some d => rw [hc rfl d g]; simp
  obtain ⟨T, t1, t2, t3, t4, t5, t6⟩ := l2.tree (y, S.restored) (by simp)
  simp only at t1 t2 t4 t5
  have tt : h3.tree y = T := by rw [← t1]; exact t3.tree l2.reach.core.wf
  refine ⟨h3, y, ?_, l2.reach, l2.same, t4, fun i hi => t6 i ?_, by rw [tt]; exact t2⟩
  · simp only [convertOld, ck]; exact e
  · exact (below_iff_ids t3 i).1 (by rw [t1]; exact hi)

/-- a document of the old format: a root with three children, the second one read-only with a dictionary as value, the third one a link root with a child -/
def oldDoc : J :=
  .obj [("TP".toList, .str "iT".toList), ("TG".toList, .str "root".toList), ("DT".toList, .int 1), ("iT".toList, .arr [
    .obj [("TP".toList, .str "iT".toList), ("TG".toList, .str "a".toList), ("DT".toList, .null), ("iT".toList, .arr [])],
    .obj [("TG".toList, .int 5), ("TP".toList, .str "iTRO".toList), ("iT".toList, .arr []), ("DT".toList, .obj [("TP".toList, .str "D".toList), ("DC".toList, .arr [.arr [.str "k".toList, .bool true]])])],
    .obj [("TG".toList, .str "l".toList), ("TP".toList, .str "iTl".toList), ("LK".toList, .arr [.str "f.itz".toList, .arr [.str "a".toList]]), ("DT".toList, .int 2), ("iT".toList, .arr [
      .obj [("TP".toList, .str "iTPH".toList), ("TG".toList, .str "c".toList)]])]])]

def oldShape : Shape := .node (.str "root") (.int 1) 0#6 none [.node (.str "a") .none 0#6 none [], .node (.int 5) (.dict [(.str "k", .bool true)]) (Flags.readOnlyTree ||| Flags.readOnlyValue) none [],
  .node (.str "l") (.int 2) Flags.linkRoot (some { file := some "f.itz", path := [.str "a"] }) [.node (.str "c") .noValue Flags.placeholder none []]]

theorem field_of {l : List (List Char × J)} {k : String} {v : J} (h : objGet k.toList l = some v) : HasField (.obj l) k v := ⟨l, rfl, h⟩

theorem oldDoc_doc : TreeDoc stdNames envJ oldShape oldDoc := by
  refine ⟨_, field_of rfl, rfl, .inr ⟨.inl ⟨.inl ⟨field_of rfl, rfl⟩, ⟨_, rfl, rfl⟩, rfl⟩, _, _, field_of rfl, rfl, field_of rfl, ?_⟩⟩
  refine ⟨_, _, rfl, ⟨_, field_of rfl, rfl, .inr ⟨.inl ⟨.inl ⟨field_of rfl, rfl⟩, ⟨_, rfl, rfl⟩, rfl⟩, _, _, field_of rfl, rfl, field_of rfl, rfl⟩⟩, ?_⟩
  refine ⟨_, _, rfl, ⟨_, field_of rfl, rfl, .inr ⟨.inl ⟨.inr ⟨field_of rfl, rfl⟩, ⟨_, rfl, rfl⟩, rfl⟩, _, _, field_of rfl, ?_, field_of rfl, rfl⟩⟩, ?_⟩
  · simp only [stdNames, valObj, valObjM, ValDoc]
    refine ⟨⟨_, .inl ⟨trivial, .inl (field_of rfl)⟩, field_of rfl, _, _, _, rfl, rfl, rfl, rfl⟩, ?_, ?_⟩
    · intro p hp; simp at hp; subst hp; rfl
    · simp [Json.Distinct]
  · refine ⟨_, _, rfl, ⟨_, field_of rfl, rfl, .inr ⟨.inr ⟨.inr (field_of rfl), rfl, _, _, _, _, rfl, field_of rfl, rfl, .inr ⟨_, rfl, rfl⟩⟩, _, _, field_of rfl, rfl, field_of rfl, ?_⟩⟩, rfl⟩
    exact ⟨_, _, rfl, ⟨_, field_of rfl, rfl, .inl ⟨field_of rfl, rfl, rfl, rfl, rfl⟩⟩, rfl⟩

/-- the header of the demo file without its closing brace -/
def oldHead : List Char := "{\"VERSION\":\"1.1.1\"".toList

/-- the hypotheses hold for the printed demo document -/
example : '*' ∉ oldHead ∧ Json.loads (oldHead ++ ['}']) = some (.obj [("VERSION".toList, .str "1.1.1".toList)]) ∧ Json.loads (Json.dumps styO oldDoc) = some oldDoc ∧
    TreeDoc stdNames envJ oldShape oldDoc := by
  have e : oldHead ++ ['}'] = Json.dumps styO (.obj [("VERSION".toList, .str "1.1.1".toList)]) := by decide +kernel
  refine ⟨by decide, by rw [e]; exact Json.loads_dumps styO _ (by simp [Json.J.ok, Json.J.okM]), Json.loads_dumps styO oldDoc (by simp [oldDoc, Json.J.ok, Json.J.okL, Json.J.okM]), oldDoc_doc⟩

/-- C72 (what is refused): another version, or – when hashes are checked – a hash that does not fit the data section, is a PermissionError; nothing is built. -/
theorem C72_refused {σ ι : Type} (B : Builder σ ι) (N : Names) (E : Env) (n : Nat) (sha1 : List Char → List Char) (chk : Bool) (s : σ) {hd dt : List Char} {o : List (List Char × J)} {v : J}
    (h1 : '*' ∉ hd) (h2 : ¬ "}***DT***".toList <:+: dt) (hh : Json.loads (hd ++ ['}']) = some (.obj o)) (hv : objGet "VERSION".toList o = some v)
    (hw : v ≠ .str "1.1.1".toList ∨ chk = true ∧ ∃ d, objGet "HASH".toList o = some d ∧ d ≠ .str (sha1 dt)) :
    convertOld B N E n sha1 chk s (hd ++ ("}***DT***".toList ++ dt)) = (s, .error .permission) := by
  have ck : oldCheck sha1 chk (hd ++ ("}***DT***".toList ++ dt)) = .error .permission := by
    have sp := split_old hd dt h1 h2
    unfold oldSep at sp
    unfold oldCheck oldSep
    rw [sp]
    simp only [hh, hv]
    by_cases e : v = .str "1.1.1".toList
    · rcases hw with hw | ⟨rfl, d, hd, hw⟩
      · exact absurd e hw
      · subst e
        rw [if_neg (by simp), hd]
        rw [if_pos]
        simp only [Bool.true_and]
        split
        · next d' e => cases e; simp; intro e; exact hw (by rw [e])
        · rfl
        · next e => simp at e
    · rw [if_pos]
      split
      · next v' => simp; intro e'; exact e (by rw [e']; rfl)
      · rfl
  simp only [convertOld, ck]

/-- a demo file with a wrong version -/
example : Json.loads ("{\"VERSION\":\"1.1.0\"".toList ++ ['}']) = some (.obj [("VERSION".toList, .str "1.1.0".toList)]) ∧ J.str "1.1.0".toList ≠ .str "1.1.1".toList := by
  have e : "{\"VERSION\":\"1.1.0\"".toList ++ ['}'] = Json.dumps styO (.obj [("VERSION".toList, .str "1.1.0".toList)]) := by decide +kernel
  exact ⟨by rw [e]; exact Json.loads_dumps styO _ (by simp [Json.J.ok, Json.J.okM]), by simp⟩

/-- Disagreement: the separator is searched in the whole file – a file whose data (say, a string value) contains the text `}***DT***` is refused with a ValueError, whatever it contains. -/
theorem C72_separator_wrong {σ ι : Type} (B : Builder σ ι) (N : Names) (E : Env) (n : Nat) (sha1 : List Char → List Char) (chk : Bool) (s : σ) {hd a b : List Char} (h1 : '*' ∉ hd) (h2 : '*' ∉ a) :
    convertOld B N E n sha1 chk s (hd ++ ("}***DT***".toList ++ (a ++ ("}***DT***".toList ++ b)))) = (s, .error .value) := by
  have ck : oldCheck sha1 chk (hd ++ ("}***DT***".toList ++ (a ++ ("}***DT***".toList ++ b)))) = .error .value := by
    have e : (hd ++ (oldSep ++ (a ++ (oldSep ++ b)))).length + 1 = (17 + b.length + 1 + a.length) + 1 + hd.length := by
      simp only [List.length_append, oldSep_length]; omega
    have sp : splitSep oldSep ((hd ++ (oldSep ++ (a ++ (oldSep ++ b)))).length + 1) (hd ++ (oldSep ++ (a ++ (oldSep ++ b)))) = hd :: a :: splitSep oldSep (17 + b.length) b := by
      rw [e, split_cons hd _ h1, split_cons a _ h2]
    have ne : ∀ n, ∃ w ws, splitSep oldSep n b = w :: ws := by
      intro n
      cases n with
      | zero => exact ⟨_, _, rfl⟩
      | succ n =>
        cases b with
        | nil => exact ⟨_, _, rfl⟩
        | cons c cs =>
          rw [splitSep]
          split
          · exact ⟨_, _, rfl⟩
          · split <;> exact ⟨_, _, rfl⟩
    obtain ⟨w, ws, e2⟩ := ne (17 + b.length)
    rw [e2] at sp
    unfold oldSep at sp
    unfold oldCheck oldSep
    rw [sp]
  simp only [convertOld, ck]

example : '*' ∉ oldHead ∧ '*' ∉ "{\"TP\":\"iT\",\"TG\":\"".toList := by decide

/-- Disagreement: an untyped dictionary in the data is not converted – the loop runs over its keys and takes them apart, so a key whose length is not 2 raises a ValueError … -/
theorem C72_plain_dict_wrong {σ ι : Type} (B : Builder σ ι) (N : Names) (E : Env) (n : Nat) (s : σ) (k : List Char) (v : J) (r : List (List Char × J)) (hk : k.length ≠ 2) (ht : objGet "TP".toList ((k, v) :: r) = none) :
    decodeOld B N E (n + 1) s (.obj ((k, v) :: r)) = (s, .error .value) := by
  have e : objGetD "TP".toList ((k, v) :: r) = .null := by unfold objGetD; rw [ht]; rfl
  rw [decodeOld]
  simp only [e]
  match k, hk with
  | [], _ => rfl
  | [_], _ => rfl
  | [_, _], h => simp at h
  | _ :: _ :: _ :: _, _ => rfl

/-- … and `{"ab": 1}` becomes `{"a": "b"}`. -/
theorem C72_two_chars_wrong {σ ι : Type} (B : Builder σ ι) (N : Names) (E : Env) (n : Nat) (s : σ) (v : J) :
    decodeOld B N E (n + 1) s (.obj [("ab".toList, v)]) = (s, .ok (.py (.map "dict".toList [(.str ['a'], .str ['b'])]))) := rfl

/-- Disagreement: typed documents inside a plain list are not converted. -/
theorem C72_list_wrong {σ ι : Type} (B : Builder σ ι) (N : Names) (E : Env) (n : Nat) (s : σ) :
    decodeOld B N E (n + 1) s (.arr [.obj [("TP".toList, .str "ITER:tuple".toList), ("DC".toList, .arr [])]]) =
      (s, .ok (.py (.seq .list [.map "dict".toList [(.str "TP".toList, .str "ITER:tuple".toList), (.str "DC".toList, .seq .list [])]]))) := rfl

/-- Disagreement: an item without data gets the value None, not "no value". -/
theorem C72_no_data_wrong {σ ι : Type} (B : Builder σ ι) (E : Env) (n : Nat) (s : σ) (t : List Char) :
    decodeOld B stdNames E (n + 2) s (.obj [("TP".toList, .str "iT".toList), ("TG".toList, .str t), ("iT".toList, .arr [])]) =
      ((B.new s (stdNames.pvTag (.str t)) .none [] 0#6 none).1, .ok (.item (B.new s (stdNames.pvTag (.str t)) .none [] 0#6 none).2)) := rfl

/-- Disagreement: a read-only item (type 'iTRO') with a link is not protected after the conversion: it has only the flag LINK_ROOT. -/
theorem C72_link_flags_wrong {σ ι : Type} (B : Builder σ ι) (E : Env) (n : Nat) (s : σ) (t p : List Char) :
    decodeOld B stdNames E (n + 2) s (.obj [("TP".toList, .str "iTRO".toList), ("TG".toList, .str t), ("DT".toList, .int 1), ("LK".toList, .arr [.null, .arr [.str p]]), ("iT".toList, .arr [])]) =
      ((B.new s (stdNames.pvTag (.str t)) (stdNames.pvVal (.int 1)) [] Flags.linkRoot (some { path := [stdNames.pvTag (.str p)] })).1,
        .ok (.item (B.new s (stdNames.pvTag (.str t)) (stdNames.pvVal (.int 1)) [] Flags.linkRoot (some { path := [stdNames.pvTag (.str p)] })).2)) := rfl

example : Flags.linkRoot.has Flags.readOnlyTree = false ∧ Flags.linkRoot.has Flags.readOnlyValue = false := by decide

end ITree
