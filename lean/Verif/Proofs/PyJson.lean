import Verif.Spec.PyJson
/-
The object converter is undone by its inverse.
-/
namespace Json

theorem hashableL_of {l : List PV} (h : ∀ x ∈ l, hashable x = true) : hashableL l = true := by
  induction l with
  | nil => rfl
  | cons x l ih => simp only [hashableL, h x (by simp), ih fun y hy => h y (by simp [hy])]; rfl

theorem dedup_aux (eq : PV → PV → Bool) : ∀ (l acc : List PV), Distinct eq (acc.reverse ++ l) → dedup eq acc l = acc.reverse ++ l := by
  intro l
  induction l with
  | nil => intro acc _; simp [dedup]
  | cons x l ih =>
    intro acc h
    have hx : ∀ y ∈ acc, eq y x = false := by
      intro y hy
      simp only [Distinct, List.pairwise_append] at h
      exact h.2.2 y (by simpa using hy) x (by simp)
    have : acc.any (fun y => eq y x) = false := by rw [List.any_eq_false]; intro y hy; simp [hx y hy]
    simp only [dedup, this, Bool.false_eq_true, if_false]
    rw [ih (x :: acc) (by simpa using h)]; simp

theorem dedup_id {eq : PV → PV → Bool} {l : List PV} (h : Distinct eq l) : dedup eq [] l = l := by
  have := dedup_aux eq l [] (by simpa using h); simpa using this

theorem dictPut_new {eq : PV → PV → Bool} {k v : PV} : ∀ {d : List (PV × PV)}, (∀ p ∈ d, eq p.1 k = false) → dictPut eq k v d = d ++ [(k, v)] := by
  intro d
  induction d with
  | nil => intro _; rfl
  | cons p d ih =>
    intro h
    obtain ⟨k', v'⟩ := p
    have := h (k', v') (by simp)
    simp only at this
    simp only [dictPut, this, Bool.false_eq_true, if_false, List.cons_append]
    rw [ih fun q hq => h q (by simp [hq])]

theorem dictOf_aux {eq : PV → PV → Bool} : ∀ (l d : List (PV × PV)), Distinct eq ((d ++ l).map Prod.fst) → l.foldl (fun d p => dictPut eq p.1 p.2 d) d = d ++ l := by
  intro l
  induction l with
  | nil => intro d _; simp
  | cons p l ih =>
    intro d h
    have hp : ∀ q ∈ d, eq q.1 p.1 = false := by
      intro q hq
      simp only [Distinct, List.map_append, List.pairwise_append] at h
      exact h.2.2 q.1 (List.mem_map_of_mem hq) p.1 (by simp)
    simp only [List.foldl_cons]
    rw [dictPut_new hp, ih _ (by simpa using h)]; simp

theorem dictOf_id {eq : PV → PV → Bool} {l : List (PV × PV)} (h : Distinct eq (l.map Prod.fst)) : dictOf eq l = l := by
  have := dictOf_aux l [] (by simpa using h); simpa [dictOf] using this

theorem bytesOf_ints : ∀ {l : List Nat}, (∀ n ∈ l, n < 256) → bytesOf (l.map fun (n : Nat) => J.int n) = .ok l := by
  intro l
  induction l with
  | nil => intro _; rfl
  | cons n l ih =>
    intro h
    have hn := h n (by simp)
    simp only [List.map_cons, bytesOf]
    rw [if_pos (by omega), ih fun m hm => h m (by simp [hm])]; rfl

theorem bytes_ok : ∀ (l : List Nat), J.okL (l.map fun (n : Nat) => J.int n) := by
  intro l; induction l with
  | nil => trivial
  | cons n l ih => simp only [List.map_cons, J.okL]; exact ⟨by simp [J.ok], ih⟩

theorem fromJson_seq (E : Env) {js : List J} {l : List PV} {n : List Char} {r : Except SErr PV} (h : fromList E js = .ok l) (hr : evalSeq E n l = r) :
    fromJson E (.arr [.arr js, typeNo 4, .str n]) = r := by
  have h0 : ¬ typeKey (typeNo 4) = some 0 := by decide
  have h1 : ¬ typeKey (typeNo 4) = some 1 := by decide
  have h3 : ¬ typeKey (typeNo 4) = some 3 := by decide
  have h4 : typeKey (typeNo 4) = some 4 := by decide
  simp only [fromJson, dispatch, if_neg h0, if_neg h1, if_neg h3, if_pos h4, fromListOf, h, hr]

theorem fromJson_map (E : Env) {js : List J} {l : List (PV × PV)} {n : List Char} {r : Except SErr PV} (h : fromPairs E js = .ok l) (hr : evalMap E n l = r) :
    fromJson E (.arr [.arr js, typeNo 3, .str n]) = r := by
  have h0 : ¬ typeKey (typeNo 3) = some 0 := by decide
  have h1 : ¬ typeKey (typeNo 3) = some 1 := by decide
  have h3 : typeKey (typeNo 3) = some 3 := by decide
  simp only [fromJson, dispatch, if_neg h0, if_neg h1, if_pos h3, fromPairsOf, h, hr]

theorem fromJson_init (E : Env) {j : J} {args : List PV} {k : SeqKind} {c m : List Char} {r : Except SErr PV} (h : fromJson E j = .ok (.seq k args)) (hr : E.build c m args = r) :
    fromJson E (.arr [j, typeNo 6, .str c, .str m]) = r := by
  have h0 : ¬ typeKey (typeNo 6) = some 0 := by decide
  have h1 : ¬ typeKey (typeNo 6) = some 1 := by decide
  have h3 : ¬ typeKey (typeNo 6) = some 3 := by decide
  have h4 : ¬ typeKey (typeNo 6) = some 4 := by decide
  have h6 : typeKey (typeNo 6) = some 6 := by decide
  simp only [fromJson, dispatch, if_neg h0, if_neg h1, if_neg h3, if_neg h4, if_pos h6, h, hr]

theorem evalSeq_list (E : Env) (l : List PV) : evalSeq E SeqKind.list.name l = .ok (.seq .list l) := by simp only [evalSeq, if_true]
theorem evalSeq_tuple (E : Env) (l : List PV) : evalSeq E SeqKind.tuple.name l = .ok (.seq .tuple l) := by
  unfold evalSeq; rw [if_neg (by decide), if_pos rfl]
theorem evalSeq_deque (E : Env) (l : List PV) : evalSeq E SeqKind.deque.name l = .ok (.seq .deque l) := by
  unfold evalSeq; rw [if_neg (by decide), if_neg (by decide), if_pos rfl]
theorem evalSeq_set (E : Env) (l : List PV) (h : hashableL l = true) (hd : Distinct E.eq l) : evalSeq E SeqKind.set.name l = .ok (.seq .set l) := by
  unfold evalSeq; rw [if_neg (by decide), if_neg (by decide), if_neg (by decide), if_pos rfl, if_pos h, dedup_id hd]
theorem evalSeq_frozenset (E : Env) (l : List PV) (h : hashableL l = true) (hd : Distinct E.eq l) : evalSeq E SeqKind.frozenset.name l = .ok (.seq .frozenset l) := by
  unfold evalSeq; rw [if_neg (by decide), if_neg (by decide), if_neg (by decide), if_neg (by decide), if_pos rfl, if_pos h, dedup_id hd]

mutual
theorem toJson_fromJson (E : Env) : ∀ (v : PV), Supported E v → ∃ j, toJson E v = .ok j ∧ j.ok ∧ fromJson E j = .ok v
  | .none, _ => ⟨_, by simp only [toJson]; rfl, by simp [J.ok, J.okL, typeNo], by simp [fromJson, dispatch, fromListOf, fromPairsOf, typeKey, typeNo, raw]⟩
  | .bool b, _ => ⟨_, by simp only [toJson]; rfl, by simp [J.ok, J.okL, typeNo], by simp [fromJson, dispatch, fromListOf, fromPairsOf, typeKey, typeNo, raw]⟩
  | .int z, h => by
    have : intOk E.orjson z = true := by
      simp only [Supported] at h
      simp only [intOk]
      cases ho : E.orjson
      · rfl
      · have := h ho; simp [this]
    exact ⟨_, by simp only [toJson, this, if_true]; rfl, by simp [J.ok, J.okL, typeNo], by simp [fromJson, dispatch, fromListOf, fromPairsOf, typeKey, typeNo, raw]⟩
  | .flt t, h => ⟨_, by simp only [toJson]; rfl, by simp only [Supported, fltTok] at h; simp [J.ok, J.okL, typeNo, h], by simp [fromJson, dispatch, fromListOf, fromPairsOf, typeKey, typeNo, raw]⟩
  | .inf, h => by
    simp only [Supported] at h
    exact ⟨_, by simp only [toJson, h, Bool.false_eq_true, if_false]; rfl, by simp [J.ok, J.okL, typeNo], by simp [fromJson, dispatch, fromListOf, fromPairsOf, typeKey, typeNo, raw]⟩
  | .ninf, h => by
    simp only [Supported] at h
    exact ⟨_, by simp only [toJson, h, Bool.false_eq_true, if_false]; rfl, by simp [J.ok, J.okL, typeNo], by simp [fromJson, dispatch, fromListOf, fromPairsOf, typeKey, typeNo, raw]⟩
  | .nan, h => by
    simp only [Supported] at h
    exact ⟨_, by simp only [toJson, h, Bool.false_eq_true, if_false]; rfl, by simp [J.ok, J.okL, typeNo], by simp [fromJson, dispatch, fromListOf, fromPairsOf, typeKey, typeNo, raw]⟩
  | .str s, _ => ⟨_, by simp only [toJson]; rfl, by simp [J.ok, J.okL, typeNo], by simp [fromJson, dispatch, fromListOf, fromPairsOf, typeKey, typeNo, raw]⟩
  | .bytes l, h => by
    simp only [Supported] at h
    exact ⟨_, by simp only [toJson]; rfl, by simp [J.ok, J.okL, typeNo, bytes_ok], by simp [fromJson, dispatch, fromListOf, fromPairsOf, typeKey, typeNo, bytesOf_ints h, Except.map]⟩
  | .const k, h => by
    simp only [Supported] at h
    exact ⟨_, by simp only [toJson, h, if_true]; rfl, by simp [J.ok, J.okL, typeNo], by simp [fromJson, dispatch, fromListOf, fromPairsOf, typeKey, typeNo]; omega⟩
  | .cls _, h => by simp [Supported] at h
  | .seq k l, h => by
    have hl : SupportedL E l := by cases k <;> simp only [Supported] at h <;> first | exact h | exact h.1
    obtain ⟨js, h1, h2, h3⟩ := toJsonL_fromList E l hl
    refine ⟨_, by simp only [toJson, h1]; rfl, by simp [J.ok, J.okL, typeNo, h2], ?_⟩
    cases k with
    | list => exact fromJson_seq E h3 (evalSeq_list E l)
    | tuple => exact fromJson_seq E h3 (evalSeq_tuple E l)
    | deque => exact fromJson_seq E h3 (evalSeq_deque E l)
    | set => simp only [Supported] at h; exact fromJson_seq E h3 (evalSeq_set E l (hashableL_of h.2.1) h.2.2)
    | frozenset => simp only [Supported] at h; exact fromJson_seq E h3 (evalSeq_frozenset E l (hashableL_of h.2.1) h.2.2)
    | foreign n => simp [Supported] at h
  | .map n l, h => by
    simp only [Supported] at h
    obtain ⟨js, h1, h2, h3⟩ := toJsonM_fromPairs E l h.2.1
    refine ⟨_, by simp only [toJson, h1]; rfl, by simp [J.ok, J.okL, typeNo, h2], ?_⟩
    have hh : l.all (fun p => hashable p.1) = true := by rw [List.all_eq_true]; exact h.2.2.1
    apply fromJson_map E h3
    unfold evalMap
    rw [if_pos h.1, if_pos hh, dictOf_id h.2.2.2]
  | .init c m t args, h => by
    simp only [Supported] at h
    obtain ⟨js, h1, h2, h3⟩ := toJsonL_fromList E args h.1
    refine ⟨_, by simp only [toJson, h1]; rfl, by simp [J.ok, J.okL, typeNo, h2], ?_⟩
    cases t
    · exact fromJson_init E (fromJson_seq E h3 (evalSeq_list E args)) h.2
    · exact fromJson_init E (fromJson_seq E h3 (evalSeq_tuple E args)) h.2
  | .obj _, h => by simp [Supported] at h
theorem toJsonL_fromList (E : Env) : ∀ (l : List PV), SupportedL E l → ∃ js, toJsonL E l = .ok js ∧ J.okL js ∧ fromList E js = .ok l
  | [], _ => ⟨[], rfl, trivial, rfl⟩
  | x :: xs, h => by
    simp only [SupportedL] at h
    obtain ⟨j, h1, h2, h3⟩ := toJson_fromJson E x h.1
    obtain ⟨js, h4, h5, h6⟩ := toJsonL_fromList E xs h.2
    exact ⟨j :: js, by simp only [toJsonL, h1, h4], ⟨h2, h5⟩, by simp only [fromList, h3, h6]⟩
theorem toJsonM_fromPairs (E : Env) : ∀ (l : List (PV × PV)), SupportedM E l → ∃ js, toJsonM E l = .ok js ∧ J.okL js ∧ fromPairs E js = .ok l
  | [], _ => ⟨[], rfl, trivial, rfl⟩
  | (k, v) :: xs, h => by
    simp only [SupportedM] at h
    obtain ⟨a, h1, h2, h3⟩ := toJson_fromJson E k h.1
    obtain ⟨b, h1', h2', h3'⟩ := toJson_fromJson E v h.2.1
    obtain ⟨js, h4, h5, h6⟩ := toJsonM_fromPairs E xs h.2.2
    exact ⟨.arr [a, b] :: js, by simp only [toJsonM, h1, h1', h4], by simp [J.okL, J.ok, h2, h2', h5], by simp only [fromPairs, h3, h3', h6]⟩
end

end Json
