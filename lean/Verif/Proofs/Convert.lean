import Verif.Spec.Convert
import Verif.Proofs.Load
import Verif.Proofs.PyJson
import Verif.Proofs.Repr
/-
The converter on documents that stand for values and trees.
-/
namespace ITree

open Json (J PV Env SErr Style)

section
variable {σ ι : Type} (B : Builder σ ι) (N : Names) (E : Env)

/-- `decode` used for a value -/
def pyOf (n : Nat) (s : σ) (j : J) : σ × Except SErr PV := ((decodeOld B N E n s j).1, asPy (decodeOld B N E n s j).2)
/-- `decode` used for an item -/
def itOf (n : Nat) (s : σ) (j : J) : σ × Except SErr ι := ((decodeOld B N E n s j).1, asItem (decodeOld B N E n s j).2)

/-- decoding an object with a type name -/
theorem decode_obj (n : Nat) (s : σ) (l : List (List Char × J)) (ty : List Char) (h : objGet "TP".toList l = some (.str ty)) :
    decodeOld B N E (n + 1) s (.obj l) =
      if ty ∈ ["iT".toList, "iTRO".toList, "iTl".toList, "iTPH".toList, "iTI".toList] then
        match pyOf B N E n s (objGetD "TG".toList l) with
        | (s1, .error e) => (s1, .error e)
        | (s1, .ok tag) =>
          if ty = "iTPH".toList then ((B.new s1 (N.pvTag tag) .noValue [] Flags.placeholder none).1, .ok (.item (B.new s1 (N.pvTag tag) .noValue [] Flags.placeholder none).2))
          else if ty = "iTI".toList then (s1, .ok (.py (.seq (.foreign "TagIdx".toList) [tag, Json.raw (objGetD "IDX".toList l)])))
          else match decData (pyOf B N E n) s1 (objGetD "DT".toList l) with
            | (s2, .error e) => (s2, .error e)
            | (s2, .ok v) => match overList s2 (objGetD "iT".toList l) (decAll (itOf B N E n) s2) with
              | (s3, .error e) => (s3, .error e)
              | (s3, .ok kids) => newOld B N (pyOf B N E n) s3 (N.pvTag tag) (N.pvVal v) kids ty (objGetD "LK".toList l)
      else decContainer E (pyOf B N E n) s ty l := by
  have e : objGetD "TP".toList l = .str ty := by unfold objGetD; rw [h]; rfl
  rw [decodeOld]
  simp only [e]
  rfl

theorem getD_of {k : List Char} {l : List (List Char × J)} {j : J} (h : objGet k l = some j) : objGetD k l = j := by unfold objGetD; rw [h]; rfl

theorem HasField.get {l : List (List Char × J)} {k : String} {v : J} (h : HasField (.obj l) k v) : objGet k.toList l = some v := by
  obtain ⟨l', e, h⟩ := h
  cases e; exact h

theorem HasField.obj {j : J} {k : String} {v : J} (h : HasField j k v) : ∃ l, j = .obj l := by
  obtain ⟨l, e, _⟩ := h
  exact ⟨l, e⟩

/-- a sequence container -/
theorem decode_seq {j : J} {js : List J} {l : List PV} (k : List Char) (ty : String) (e : ty.toList = "ITER:".toList ++ k) (h1 : HasField j "TP" (.str ty.toList)) (h2 : HasField j "DC" (.arr js))
    {r : PV} (hr : Json.evalSeq E k l = .ok r) {n0 : Nat} (ih : ∀ n, n0 ≤ n → ∀ s : σ, decAll (pyOf B N E n) s js = (s, .ok l)) : ∃ n0, ∀ n, n0 ≤ n → ∀ s : σ, decodeOld B N E n s j = (s, .ok (.py r)) := by
  refine ⟨n0 + 1, fun n hn s => ?_⟩
  obtain ⟨m, rfl⟩ : ∃ m, n = m + 1 := ⟨n - 1, by omega⟩
  obtain ⟨o, rfl⟩ := h1.obj
  rw [decode_obj B N E m s o _ h1.get]
  have hm := ih m (by omega) s
  have g := getD_of h2.get
  rw [e]
  have n1 : "ITER:".toList ++ k ∉ ["iT".toList, "iTRO".toList, "iTl".toList, "iTPH".toList, "iTI".toList] := by simp
  rw [if_neg n1, decContainer]
  rw [if_neg (by simp), if_neg (by simp), if_pos (by simp)]
  simp only [g, overList, hm]
  have : ("ITER:".toList ++ k).drop 5 = k := rfl
  rw [this, hr]; rfl

/-- a mapping container -/
theorem decode_map {j : J} {js : List J} {l : List (PV × PV)} (nm ty : List Char) (h1 : HasField j "TP" (.str ty)) (h2 : HasField j "DC" (.arr js))
    (ht : nm = "OrderedDict".toList ∧ ty = "OD".toList ∨ nm = "dict".toList ∧ (ty = "D".toList ∨ ty = "d".toList ∨ ty = "DR".toList))
    {r : PV} (hr : Json.evalMap E nm l = .ok r) {n0 : Nat} (ih : ∀ n, n0 ≤ n → ∀ s : σ, decAll (decPair (pyOf B N E n)) s js = (s, .ok l)) :
    ∃ n0, ∀ n, n0 ≤ n → ∀ s : σ, decodeOld B N E n s j = (s, .ok (.py r)) := by
  refine ⟨n0 + 1, fun n hn s => ?_⟩
  obtain ⟨m, rfl⟩ : ∃ m, n = m + 1 := ⟨n - 1, by omega⟩
  obtain ⟨o, rfl⟩ := h1.obj
  rw [decode_obj B N E m s o _ h1.get]
  have hm := ih m (by omega) s
  have g := getD_of h2.get
  have n1 : ty ∉ ["iT".toList, "iTRO".toList, "iTl".toList, "iTPH".toList, "iTI".toList] := by
    rcases ht with ⟨_, rfl⟩ | ⟨_, rfl | rfl | rfl⟩ <;> simp
  rw [if_neg n1, decContainer]
  rcases ht with ⟨rfl, rfl⟩ | ⟨rfl, ht⟩
  · rw [if_pos rfl]
    simp only [g, overList, hm, hr]; rfl
  · rw [if_neg (by rcases ht with rfl | rfl | rfl <;> simp), if_pos ht]
    simp only [g, overList, hm, hr]; rfl

mutual
/-- a document that stands for a value is converted to this value; nothing is built -/
theorem decVal : ∀ (v : PV) (j : J), ValDoc E v j → ∃ n0, ∀ n, n0 ≤ n → ∀ s : σ, decodeOld B N E n s j = (s, .ok (.py v))
  | .none, j, h => by
    simp only [ValDoc] at h; subst h
    exact ⟨1, fun n hn s => by obtain ⟨m, rfl⟩ : ∃ m, n = m + 1 := ⟨n - 1, by omega⟩; rfl⟩
  | .bool b, j, h => by
    simp only [ValDoc] at h; subst h
    exact ⟨1, fun n hn s => by obtain ⟨m, rfl⟩ : ∃ m, n = m + 1 := ⟨n - 1, by omega⟩; rfl⟩
  | .int z, j, h => by
    simp only [ValDoc] at h; subst h
    exact ⟨1, fun n hn s => by obtain ⟨m, rfl⟩ : ∃ m, n = m + 1 := ⟨n - 1, by omega⟩; rfl⟩
  | .flt t, j, h => by
    simp only [ValDoc] at h; subst h
    exact ⟨1, fun n hn s => by obtain ⟨m, rfl⟩ : ∃ m, n = m + 1 := ⟨n - 1, by omega⟩; rfl⟩
  | .inf, j, h => by
    simp only [ValDoc] at h; subst h
    exact ⟨1, fun n hn s => by obtain ⟨m, rfl⟩ : ∃ m, n = m + 1 := ⟨n - 1, by omega⟩; rfl⟩
  | .ninf, j, h => by
    simp only [ValDoc] at h; subst h
    exact ⟨1, fun n hn s => by obtain ⟨m, rfl⟩ : ∃ m, n = m + 1 := ⟨n - 1, by omega⟩; rfl⟩
  | .nan, j, h => by
    simp only [ValDoc] at h; subst h
    exact ⟨1, fun n hn s => by obtain ⟨m, rfl⟩ : ∃ m, n = m + 1 := ⟨n - 1, by omega⟩; rfl⟩
  | .str t, j, h => by
    simp only [ValDoc] at h; subst h
    exact ⟨1, fun n hn s => by obtain ⟨m, rfl⟩ : ∃ m, n = m + 1 := ⟨n - 1, by omega⟩; rfl⟩
  | .bytes _, _, h => by simp [ValDoc] at h
  | .const _, _, h => by simp [ValDoc] at h
  | .cls _, _, h => by simp [ValDoc] at h
  | .init _ _ _ _, _, h => by simp [ValDoc] at h
  | .obj _, _, h => by simp [ValDoc] at h
  | .seq (.foreign _) _, _, h => by simp [ValDoc] at h
  | .seq .list l, j, h => by
    simp only [ValDoc] at h
    obtain ⟨js, h1, h2, h3⟩ := h
    obtain ⟨n0, ih⟩ := decValL l js h3
    exact decode_seq B N E _ "ITER:list" rfl h1 h2 (Json.evalSeq_list E l) ih
  | .seq .tuple l, j, h => by
    simp only [ValDoc] at h
    obtain ⟨js, h1, h2, h3⟩ := h
    obtain ⟨n0, ih⟩ := decValL l js h3
    exact decode_seq B N E _ "ITER:tuple" rfl h1 h2 (Json.evalSeq_tuple E l) ih
  | .seq .deque l, j, h => by
    simp only [ValDoc] at h
    obtain ⟨js, h1, h2, h3⟩ := h
    obtain ⟨n0, ih⟩ := decValL l js h3
    exact decode_seq B N E _ "ITER:deque" rfl h1 h2 (Json.evalSeq_deque E l) ih
  | .seq .set l, j, h => by
    simp only [ValDoc] at h
    obtain ⟨⟨js, h1, h2, h3⟩, h4, h5⟩ := h
    obtain ⟨n0, ih⟩ := decValL l js h3
    exact decode_seq B N E _ "ITER:set" rfl h1 h2 (Json.evalSeq_set E l (Json.hashableL_of h4) h5) ih
  | .seq .frozenset l, j, h => by
    simp only [ValDoc] at h
    obtain ⟨⟨js, h1, h2, h3⟩, h4, h5⟩ := h
    obtain ⟨n0, ih⟩ := decValL l js h3
    exact decode_seq B N E _ "ITER:frozenset" rfl h1 h2 (Json.evalSeq_frozenset E l (Json.hashableL_of h4) h5) ih
  | .map nm l, j, h => by
    simp only [ValDoc] at h
    obtain ⟨⟨js, h1, h2, h3⟩, h4, h5⟩ := h
    obtain ⟨n0, ih⟩ := decValM l js h3
    have hr : (nm = "dict".toList ∨ nm = "OrderedDict".toList) → Json.evalMap E nm l = .ok (.map nm l) := fun hn => by
      have hh : l.all (fun p => Json.hashable p.1) = true := by rw [List.all_eq_true]; exact h4
      unfold Json.evalMap
      rw [if_pos hn, if_pos hh, Json.dictOf_id h5]
    rcases h1 with ⟨rfl, h1 | h1 | h1⟩ | ⟨rfl, h1⟩
    · exact decode_map B N E _ _ h1 h2 (.inr ⟨rfl, .inl rfl⟩) (hr (.inl rfl)) ih
    · exact decode_map B N E _ _ h1 h2 (.inr ⟨rfl, .inr (.inl rfl)⟩) (hr (.inl rfl)) ih
    · exact decode_map B N E _ _ h1 h2 (.inr ⟨rfl, .inr (.inr rfl)⟩) (hr (.inl rfl)) ih
    · exact decode_map B N E _ _ h1 h2 (.inl ⟨rfl, rfl⟩) (hr (.inr rfl)) ih
theorem decValL : ∀ (l : List PV) (js : List J), ValDocL E l js → ∃ n0, ∀ n, n0 ≤ n → ∀ s : σ, decAll (pyOf B N E n) s js = (s, .ok l)
  | [], js, h => by
    simp only [ValDocL] at h; subst h
    exact ⟨0, fun n _ s => rfl⟩
  | v :: vs, js, h => by
    simp only [ValDocL] at h
    obtain ⟨j, r, rfl, h1, h2⟩ := h
    obtain ⟨a, ha⟩ := decVal v j h1
    obtain ⟨b, hb⟩ := decValL vs r h2
    refine ⟨max a b, fun n hn s => ?_⟩
    have e1 : pyOf B N E n s j = (s, .ok v) := by simp only [pyOf, ha n (by omega) s, asPy]
    simp only [decAll, e1, hb n (by omega) s]
theorem decValM : ∀ (l : List (PV × PV)) (js : List J), ValDocM E l js → ∃ n0, ∀ n, n0 ≤ n → ∀ s : σ, decAll (decPair (pyOf B N E n)) s js = (s, .ok l)
  | [], js, h => by
    simp only [ValDocM] at h; subst h
    exact ⟨0, fun n _ s => rfl⟩
  | (k, v) :: ps, js, h => by
    simp only [ValDocM] at h
    obtain ⟨x, y, r, rfl, h1, h2, h3⟩ := h
    obtain ⟨a, ha⟩ := decVal k x h1
    obtain ⟨b, hb⟩ := decVal v y h2
    obtain ⟨c, hc⟩ := decValM ps r h3
    refine ⟨max a (max b c), fun n hn s => ?_⟩
    have := hc n (by omega) s
    have e1 : pyOf B N E n s x = (s, .ok k) := by simp only [pyOf, ha n (by omega) s, asPy]
    have e2 : pyOf B N E n s y = (s, .ok v) := by simp only [pyOf, hb n (by omega) s, asPy]
    simp only [decAll, decPair, e1, e2, this]
end

/-- a link -/
theorem decLink_doc {file : Option String} {path : List Tag} {jf jp : J} (hf : FileDoc file jf) (hp : PathDoc N E path jp) :
    ∃ d, ∀ m, d ≤ m → ∀ s : σ, decLink N (pyOf B N E m) s (.arr [jf, jp]) = (s, .ok { file := file, path := path }) := by
  have el : ∀ l, (path.map N.tagPV).map N.pvTag = l → l = path := fun l e => by
    rw [← e, List.map_map]
    conv => rhs; rw [← List.map_id path]
    exact List.map_congr_left fun t _ => N.tag_left t
  have lp : linkArg N (Json.raw jf) (.seq .list (path.map N.tagPV)) = .ok { file := file, path := path } := by
    cases file with
    | none => simp only [FileDoc] at hf; subst hf; simp only [Json.raw, linkArg, el _ rfl]
    | some g => simp only [FileDoc] at hf; subst hf; simp only [Json.raw, linkArg, el _ rfl, String.ofList_toList]
  rcases hp with hp | ⟨js, rfl, hp⟩
  · obtain ⟨d, hd⟩ := decVal B N E _ _ hp
    exact ⟨d, fun m hm s => by simp only [decLink, pyOf, hd m hm s, asPy, lp]⟩
  · refine ⟨1, fun m hm s => ?_⟩
    obtain ⟨m, rfl⟩ : ∃ k, m = k + 1 := ⟨m - 1, by omega⟩
    simp only [decLink, pyOf, decodeOld, asPy, Json.raw, hp]
    exact congrArg _ lp

variable {B N E}

mutual
/-- a document that stands for a tree is converted to a new tree of this shape -/
theorem decTree {Ok : σ → List (ι × Shape) → Prop} (Lw : Law B Ok) : ∀ (S : Shape) (j : J), TreeDoc N E S j →
    ∃ n0, ∀ n, n0 ≤ n → ∀ s L, Ok s L → ∃ s' i, decodeOld B N E n s j = (s', .ok (.item i)) ∧ Ok s' ((i, S.restored) :: L)
  | .node t v f lk ks, j, h => by
    simp only [TreeDoc] at h
    obtain ⟨jt, h1, h2, h3⟩ := h
    obtain ⟨a, ha⟩ := decVal B N E _ _ h2
    have et : N.pvTag (N.tagPV t) = t := N.tag_left t
    rcases h3 with ⟨h3, rfl, rfl, rfl, rfl⟩ | ⟨h3, jv, js, h5, h6, h7, h8⟩
    · refine ⟨a + 1, fun n hn s L o => ?_⟩
      obtain ⟨m, rfl⟩ : ∃ m, n = m + 1 := ⟨n - 1, by omega⟩
      obtain ⟨l, rfl⟩ := h1.obj
      rw [decode_obj B N E m s l _ h3.get, if_pos (by simp)]
      have e1 : pyOf B N E m s (objGetD "TG".toList l) = (s, .ok (N.tagPV t)) := by rw [getD_of h1.get]; simp only [pyOf, ha m (by omega) s, asPy]
      simp only [e1, et, if_true]
      have := Lw.new (M := []) t .noValue Flags.placeholder none (by simp) o
      simp only [List.map_nil] at this
      refine ⟨_, _, rfl, ?_⟩
      simpa [Shape.restored, Shape.restoredL, Shape.orL] using this
    · obtain ⟨b, hb⟩ := decVal B N E _ _ h6
      obtain ⟨c, hc⟩ := decTreeL Lw ks js h8
      obtain ⟨d, hd⟩ : ∃ d, ∀ m, d ≤ m → ∀ s : σ, ∀ lo x, lk = some x → HasField j "LK" lo → decLink N (pyOf B N E m) s lo = (s, .ok x) := by
        rcases h3 with ⟨_, _, rfl⟩ | ⟨_, _, file, path, jf, jp, rfl, h9, h10, h11⟩
        · exact ⟨0, fun _ _ _ _ _ e => by cases e⟩
        · obtain ⟨d, hd⟩ := decLink_doc B N E h10 h11
          refine ⟨d, fun m hm s lo x e hl => ?_⟩
          cases e
          obtain ⟨o, rfl⟩ := h9.obj
          have := hl.get.symm.trans h9.get
          cases this
          exact hd m hm s
      refine ⟨max a (max b (max c d)) + 1, fun n hn s L o => ?_⟩
      obtain ⟨m, rfl⟩ : ∃ m, n = m + 1 := ⟨n - 1, by omega⟩
      obtain ⟨l, rfl⟩ := h1.obj
      have e1 : pyOf B N E m s (objGetD "TG".toList l) = (s, .ok (N.tagPV t)) := by rw [getD_of h1.get]; simp only [pyOf, ha m (by omega) s, asPy]
      have e2 : decData (pyOf B N E m) s (objGetD "DT".toList l) = (s, .ok (N.valPV v)) := by
        rw [getD_of h5.get]
        have hb' := hb m (by omega) s
        have : pyOf B N E m s jv = (s, .ok (N.valPV v)) := by simp only [pyOf, hb', asPy]
        cases jv with
        | null =>
          cases m with
          | zero => simp [decodeOld] at hb'
          | succ m => simp only [decodeOld, Json.raw] at hb'; simp only [decData]; simpa using hb'
        | _ => exact this
      obtain ⟨s', M, e4, e5, o'⟩ := hc m (by omega) s L o
      have e6 : overList s (objGetD "iT".toList l) (decAll (itOf B N E m) s) = (s', .ok (M.map Prod.fst)) := by rw [getD_of h7.get]; exact e4
      have key : ∀ ty : List Char, objGet "TP".toList l = some (.str ty) → (ty = "iT".toList ∨ ty = "iTRO".toList ∨ ty = "iTl".toList) →
          (newOld B N (pyOf B N E m) s' t v (M.map Prod.fst) ty (objGetD "LK".toList l) = ((B.new s' t v (M.map Prod.fst) f lk).1, .ok (.item (B.new s' t v (M.map Prod.fst) f lk).2))) →
          (∀ x, lk = some x → x = { file := x.file, path := x.path } ∧ f = Flags.linkRoot) →
          ∃ s' i, decodeOld B N E (m + 1) s (.obj l) = (s', .ok (.item i)) ∧ Ok s' ((i, (Shape.node t v f lk ks).restored) :: L) := by
        intro ty g hty en hl
        have n1 : ty ∈ ["iT".toList, "iTRO".toList, "iTl".toList, "iTPH".toList, "iTI".toList] := by rcases hty with rfl | rfl | rfl <;> simp
        have n2 : ty ≠ "iTPH".toList := by rcases hty with rfl | rfl | rfl <;> simp
        have n3 : ty ≠ "iTI".toList := by rcases hty with rfl | rfl | rfl <;> simp
        rw [decode_obj B N E m s l _ g, if_pos n1]
        simp only [e1, if_neg n2, if_neg n3, e2, e6, et, N.val_left, en]
        have := Lw.new t v f lk (fun x hx => ⟨(hl x hx).1, by rw [(hl x hx).2]; decide, by rw [(hl x hx).2]; decide⟩) o'
        refine ⟨_, _, rfl, ?_⟩
        have e : (Shape.node t v f lk ks).restored = .node t v f lk (M.map fun p => p.2.or (f &&& Flags.deepMask)) := by
          have el : (if f.has Flags.linkRoot then lk.map fun l => ({ file := l.file, path := l.path } : LinkSt) else none) = lk := by
            cases lk with
            | none => simp
            | some x => rw [(hl x rfl).2, if_pos (by decide)]; simp only [Option.map_some, ← (hl x rfl).1]
          simp only [Shape.restored, el, orL_eq, restoredL_eq, ← e5, List.map_map]
          rfl
        rw [e]; exact this
      rcases h3 with ⟨h3, h4, rfl⟩ | ⟨h3, rfl, file, path, jf, jp, rfl, h9, h10, h11⟩
      · have e3 : objGetD "LK".toList l = .null := by obtain ⟨l', e, h⟩ := h4; cases e; exact h
        rcases h3 with ⟨h3, rfl⟩ | ⟨h3, rfl⟩
        · exact key _ h3.get (.inl rfl) (by rw [e3]; rfl) (by simp)
        · exact key _ h3.get (.inr (.inl rfl)) (by rw [e3]; rfl) (by simp)
      · have e3 : objGetD "LK".toList l = .arr [jf, jp] := getD_of h9.get
        have dl := hd m (by omega) s' _ _ rfl h9
        have en : ∀ ty, newOld B N (pyOf B N E m) s' t v (M.map Prod.fst) ty (objGetD "LK".toList l) =
            ((B.new s' t v (M.map Prod.fst) Flags.linkRoot (some { file := file, path := path })).1, .ok (.item (B.new s' t v (M.map Prod.fst) Flags.linkRoot (some { file := file, path := path })).2)) := by
          intro ty
          rw [e3]; unfold newOld; simp only [dl]
        rcases h3 with h3 | h3
        · exact key _ h3.get (.inl rfl) (en _) (by intro x e; cases e; exact ⟨rfl, rfl⟩)
        · exact key _ h3.get (.inr (.inr rfl)) (en _) (by intro x e; cases e; exact ⟨rfl, rfl⟩)
theorem decTreeL {Ok : σ → List (ι × Shape) → Prop} (Lw : Law B Ok) : ∀ (Ss : List Shape) (js : List J), TreeDocL N E Ss js →
    ∃ n0, ∀ n, n0 ≤ n → ∀ s L, Ok s L → ∃ s' M, decAll (itOf B N E n) s js = (s', .ok (M.map Prod.fst)) ∧ M.map Prod.snd = Ss.map Shape.restored ∧ Ok s' (M ++ L)
  | [], js, h => by
    simp only [TreeDocL] at h; subst h
    exact ⟨0, fun n _ s L o => ⟨s, [], rfl, rfl, o⟩⟩
  | S :: Ss, js, h => by
    simp only [TreeDocL] at h
    obtain ⟨j, r, rfl, h1, h2⟩ := h
    obtain ⟨a, ha⟩ := decTree Lw S j h1
    obtain ⟨b, hb⟩ := decTreeL Lw Ss r h2
    refine ⟨max a b, fun n hn s L o => ?_⟩
    obtain ⟨s1, i, e1, o1⟩ := ha n (by omega) s L o
    obtain ⟨s2, M, e2, e3, o2⟩ := hb n (by omega) s1 _ o1
    have e1' : itOf B N E n s j = (s1, .ok i) := by simp only [itOf, e1, asItem]
    refine ⟨s2, (i, S.restored) :: M, ?_, by simp [e3], Lw.perm o2 ?_⟩
    · simp only [decAll, e1', e2, List.map_cons]
    · exact List.perm_middle
end

end

/-! ### the text -/

theorem splitSep_none (sep : List Char) : ∀ (n : Nat) (s : List Char), s.length < n → ¬ sep <:+: s → splitSep sep n s = [s]
  | 0, s, h, _ => by simp at h
  | _ + 1, [], _, _ => rfl
  | n + 1, c :: cs, h, hs => by
    have : sep.isPrefixOf (c :: cs) = false := by
      rw [Bool.eq_false_iff]
      intro e
      exact hs (List.isPrefixOf_iff_prefix.1 e).isInfix
    have ih := splitSep_none sep n cs (by simp at h; omega) (fun h => hs (h.trans (List.suffix_cons c cs).isInfix))
    simp only [splitSep, this, Bool.false_eq_true, if_false, ih]

theorem oldSep_length : oldSep.length = 9 := rfl

theorem split_first (rest : List Char) (m : Nat) : splitSep oldSep (m + 1) (oldSep ++ rest) = [] :: splitSep oldSep m rest := by
  have p : oldSep.isPrefixOf (oldSep ++ rest) = true := List.isPrefixOf_iff_prefix.2 (List.prefix_append _ _)
  have d : (oldSep ++ rest).drop oldSep.length = rest := List.drop_left
  have e : ∃ cs, oldSep ++ rest = '}' :: cs := ⟨_, rfl⟩
  obtain ⟨cs, e⟩ := e
  rw [e] at p d ⊢
  rw [splitSep, if_pos p, d]

theorem not_sep {c : Char} {cs dt : List Char} (h1 : '*' ∉ cs) : oldSep.isPrefixOf (c :: (cs ++ (oldSep ++ dt))) = false := by
  have e : oldSep = '}' :: '*' :: ['*', '*', 'D', 'T', '*', '*', '*'] := rfl
  cases cs with
  | nil => rw [e]; simp [List.isPrefixOf]
  | cons d ds =>
    have : d ≠ '*' := fun e => h1 (by simp [e])
    rw [e]; simp [List.isPrefixOf, Ne.symm this]

/-- the part before the first separator, when it contains no `*` -/
theorem split_cons (hd rest : List Char) (h1 : '*' ∉ hd) : ∀ n, splitSep oldSep (n + 1 + hd.length) (hd ++ (oldSep ++ rest)) = hd :: splitSep oldSep n rest := by
  induction hd with
  | nil => intro n; exact split_first rest n
  | cons c cs ih =>
    intro n
    have h1' : '*' ∉ cs := fun h => h1 (by simp [h])
    rw [List.length_cons, ← Nat.add_assoc, List.cons_append, splitSep, if_neg (by rw [not_sep h1']; simp), ih h1' n]

/-- header and data get separated: the header contains no `*`, the data no separator -/
theorem split_old (hd dt : List Char) (h1 : '*' ∉ hd) (h2 : ¬ oldSep <:+: dt) : splitSep oldSep ((hd ++ (oldSep ++ dt)).length + 1) (hd ++ (oldSep ++ dt)) = [hd, dt] := by
  have e : (hd ++ (oldSep ++ dt)).length + 1 = (9 + dt.length) + 1 + hd.length := by rw [List.length_append, List.length_append, oldSep_length]; omega
  rw [e, split_cons hd dt h1, splitSep_none oldSep _ dt (by omega) h2]

end ITree
