import Verif.Spec.Dump
import Verif.Model.DumpFilter
import Verif.Proofs.Load
import Verif.Proofs.Gen
/-
The dump generator yields the rows of the tree, and their text.
-/
namespace ITree

open Json (J PV Env SErr Style Supported Txt Elems)

/-- the running family index of a tag -/
def tdGet (t : Tag) : List (Tag × Int) → Option Int
  | [] => none
  | (t', n) :: r => if t' = t then some n else tdGet t r

theorem bumpTag_spec (t : Tag) : ∀ (td : List (Tag × Int)) (n : Int), tdGet t td = some n →
    ∃ td', bumpTag t td = some (n + 1, td') ∧ ∀ t', tdGet t' td' = if t' = t then some (n + 1) else tdGet t' td
  | [], n, h => by simp [tdGet] at h
  | (a, m) :: r, n, h => by
    by_cases e : a = t
    · subst e
      simp only [tdGet, if_true, Option.some.injEq] at h
      subst h
      refine ⟨(a, m + 1) :: r, by simp [bumpTag], fun t' => ?_⟩
      by_cases e' : a = t'
      · subst e'; simp [tdGet]
      · simp [tdGet, e', Ne.symm e']
    · simp only [tdGet, if_neg e] at h
      obtain ⟨td', h1, h2⟩ := bumpTag_spec t r n h
      refine ⟨(a, m) :: td', by simp [bumpTag, e, h1], fun t' => ?_⟩
      by_cases e' : a = t'
      · subst e'; simp [tdGet, e]
      · simp only [tdGet, if_neg e', h2]

theorem tdGet_tagDict {h : Heap} (W : WF h) {p c : Id} (hc : c ∈ h.kids p) : tdGet (h.tag c) (tagDict h p) = some (-1) := by
  obtain ⟨F, e, ok⟩ := W.fams_ok p (fun e => by rw [e] at hc; simp at hc)
  have := ok.get (h.tag c)
  rw [if_neg (by
    intro e; have : c ∈ famView h p (h.tag c) := by simp [famView, hc]
    rw [e] at this; simp at this)] at this
  simp only [tagDict, e, Option.getD_some]
  clear e ok
  induction F with
  | nil => simp [Fams.get?] at this
  | cons x F ih =>
    simp only [List.map_cons, tdGet]
    split
    · rfl
    · rename_i hne
      apply ih
      simp only [Fams.get?, List.lookup] at this ⊢
      have hb : (h.tag c == x.1) = false := by simpa using fun e => hne e.symm
      obtain ⟨a, b⟩ := x
      simp only [hb] at this
      exact this

mutual
/-- the rows of the stored items, in pre-order: depth, family index, item or placeholder; `all`: tags of all siblings before, `seen`: tags of those that passed -/
def Tree.rowsF (f : DItem → Bool) (d fidx : Nat) : Tree → List (Nat × Int × DItem)
  | .node i _ _ g _ ks => (d, (fidx : Int), .item i) :: Tree.rowsFL f (g.has Flags.linkRoot) false [] (d + 1) [] ks
def Tree.rowsFL (f : DItem → Bool) (link add : Bool) (all : List Tag) (d : Nat) (seen : List Tag) : List Tree → List (Nat × Int × DItem)
  | [] => []
  | k :: ks =>
    if link && add && k.flags.has Flags.linked then
      if f (.ph k.tagOf (all.count k.tagOf)) then (d, (seen.count k.tagOf : Int), .ph k.tagOf (all.count k.tagOf)) :: Tree.rowsFL f link false (all ++ [k.tagOf]) d (seen ++ [k.tagOf]) ks
      else Tree.rowsFL f link false (all ++ [k.tagOf]) d seen ks
    else if f (.item k.id) then Tree.rowsF f d (seen.count k.tagOf) k ++ Tree.rowsFL f link true (all ++ [k.tagOf]) d (seen ++ [k.tagOf]) ks
      else Tree.rowsFL f link true (all ++ [k.tagOf]) d seen ks
end

/-- the objects iterated -/
def Tree.itemsL (link add : Bool) (all : List Tag) : List Tree → List DItem
  | [] => []
  | k :: ks => if link && add && k.flags.has Flags.linked then .ph k.tagOf (all.count k.tagOf) :: Tree.itemsL link false (all ++ [k.tagOf]) ks
    else .item k.id :: Tree.itemsL link true (all ++ [k.tagOf]) ks

theorem rep_tagOf {h : Heap} {T : Tree} (R : Rep h T) : h.tag T.id = T.tagOf := by cases T; exact R.1
theorem rep_flagsOf {h : Heap} {T : Tree} (R : Rep h T) : h.flags T.id = T.flags := by cases T; exact R.2.2.1

theorem itemsL_plain (add : Bool) (all : List Tag) (ts : List Tree) : Tree.itemsL false add all ts = (ts.map Tree.id).map .item := by
  induction ts generalizing add all with
  | nil => rfl
  | cons k ks ih => simp [Tree.itemsL, ih]

/-- the counter after one more sibling -/
theorem bump_count {td td' : List (Tag × Int)} {seen : List Tag} {t t' : Tag} (b2 : ∀ t', tdGet t' td' = if t' = t then some (seen.count t : Int) else tdGet t' td) (D : tdGet t' td = some ((seen.count t' : Int) - 1)) :
    tdGet t' td' = some (((seen ++ [t]).count t' : Int) - 1) := by
  rw [b2]
  split
  · next e => rw [e]; simp
  · next e => rw [D]; simp [List.count_append, List.count_cons, Ne.symm e]

theorem phLoop_eq {h : Heap} (ts : List Tree) : ∀ (td : List (Tag × Int)) (add : Bool) (all : List Tag), (∀ T ∈ ts, Rep h T) → (∀ T ∈ ts, tdGet T.tagOf td = some ((all.count T.tagOf : Int) - 1)) →
    phLoop h td add (ts.map Tree.id) = .ok (Tree.itemsL true add all ts) := by
  induction ts with
  | nil => intro td add all _ _; rfl
  | cons T rest ih =>
    intro td add all R D
    have RT := R T (by simp)
    obtain ⟨td', b1, b2⟩ := bumpTag_spec T.tagOf td _ (D T (by simp))
    rw [Int.sub_add_cancel] at b1 b2
    have := fun b => ih td' b (all ++ [T.tagOf]) (fun T hT => R T (by simp [hT])) fun T hT => bump_count b2 (D T (by simp [hT]))
    simp only [List.map_cons, phLoop, rep_tagOf RT, rep_flagsOf RT, b1, this, Tree.itemsL, Bool.true_and, Except.map]
    rw [Bool.and_comm]
    split <;> rfl

theorem tdGet_tags (h : Heap) (l : List Id) {c : Id} (hc : c ∈ l) : tdGet (h.tag c) (l.map fun c => (h.tag c, (-1 : Int))) = some (-1) := by
  induction l with
  | nil => cases hc
  | cons a l ih =>
    simp only [List.map_cons, tdGet]
    split
    · rfl
    · next e =>
      rcases List.mem_cons.1 hc with rfl | hc
      · exact absurd rfl e
      · exact ih hc

theorem dumpKids_eq {h : Heap} {T : Tree} (R : Rep h T) : dumpKids h T.id = .ok (Tree.itemsL (T.flags.has Flags.linkRoot) false [] T.kids) := by
  simp only [dumpKids, rep_flagsOf R, R.kids]
  cases e : T.flags.has Flags.linkRoot with
  | false => simp only [Bool.false_eq_true, if_false, itemsL_plain]
  | true =>
    simp only [if_true]
    refine phLoop_eq T.kids _ false [] (fun k hk => R.kid hk) fun k hk => ?_
    rw [← rep_tagOf (R.kid hk), tdGet_tags h _ (List.mem_map_of_mem hk)]
    simp

/-- the generator runs through the siblings `ts` -/
def DumpSpec (f : DItem → Bool) (h : Heap) (ts : List Tree) : Prop := ∀ (link add : Bool) (all : List Tag) (d : Nat) (seen : List Tag) (st : List DFr) (td : List (Tag × Int)) (tags : List (List (Tag × Int))),
  (∀ T ∈ ts, Rep h T) → (∀ T ∈ ts, tdGet T.tagOf td = some ((seen.count T.tagOf : Int) - 1)) →
  ∃ td', Goes (dumpStepF f h) ⟨.it ((Tree.itemsL link add all ts).filter f) :: st, d, td :: tags⟩ (Tree.rowsFL f link add all d seen ts) ⟨.it [] :: st, d, td' :: tags⟩

theorem dump_spec {h : Heap} (W : WF h) (f : DItem → Bool) (ts : List Tree) : DumpSpec f h ts := by
  refine Tree.rec_1 (motive_1 := fun T => DumpSpec f h T.kids) (motive_2 := DumpSpec f h) ?_ ?_ ?_ ts
  · intro i t v f l ks ih; exact ih
  · intro link add all d seen st td tags _ _
    exact ⟨td, Goes.refl _⟩
  · intro T rest ihT ihR link add all d seen st td tags R D
    have RT := R T (by simp)
    have R' : ∀ T ∈ rest, Rep h T := fun T hT => R T (by simp [hT])
    have D' : ∀ T ∈ rest, tdGet T.tagOf td = some ((seen.count T.tagOf : Int) - 1) := fun T hT => D T (by simp [hT])
    obtain ⟨td', b1, b2⟩ := bumpTag_spec T.tagOf td _ (D T (by simp))
    rw [Int.sub_add_cancel] at b1 b2
    have D2 : ∀ U ∈ rest, tdGet U.tagOf td' = some (((seen ++ [T.tagOf]).count U.tagOf : Int) - 1) := fun U hU => bump_count b2 (D' U hU)
    simp only [Tree.itemsL, Tree.rowsFL]
    by_cases hp : (link && add && T.flags.has Flags.linked) = true
    · simp only [hp, if_true, List.filter_cons]
      by_cases hf : f (.ph T.tagOf (all.count T.tagOf)) = true
      · simp only [hf, if_true]
        obtain ⟨td2, g⟩ := ihR link false (all ++ [T.tagOf]) d (seen ++ [T.tagOf]) st td' tags R' D2
        refine ⟨td2, Goes.cons (o := [_]) ?_ g⟩
        simp only [dumpStepF, DItem.tag, b1]
      · simp only [hf, if_false, Bool.false_eq_true]
        exact ihR link false (all ++ [T.tagOf]) d seen st td tags R' D'
    · simp only [hp, if_false, List.filter_cons, Bool.false_eq_true]
      by_cases hf : f (.item T.id) = true
      swap
      · simp only [hf, if_false, Bool.false_eq_true]
        exact ihR link true (all ++ [T.tagOf]) d seen st td tags R' D'
      simp only [hf, if_true]
      obtain ⟨td2, gr⟩ := ihR link true (all ++ [T.tagOf]) d (seen ++ [T.tagOf]) st td' tags R' D2
      generalize (Tree.itemsL link true (all ++ [T.tagOf]) rest).filter f = rest' at gr ⊢
      have et := rep_tagOf RT
      have eD := dumpKids_eq RT
      have eK := RT.kids
      have first : Goes (dumpStepF f h) ⟨.it (.item T.id :: rest') :: st, d, td :: tags⟩ (Tree.rowsF f d (seen.count T.tagOf) T) ⟨.it rest' :: st, d, td' :: tags⟩ := by
        obtain ⟨i, t, v, g, l, ks⟩ := T
        simp only [Tree.kids, Tree.id, Tree.tagOf, Tree.flags] at eK ihT et eD b1 RT ⊢
        cases ks with
        | nil =>
          refine Goes.one ?_
          simp only [List.map_nil] at eK
          simp only [dumpStepF, DItem.tag, et, b1, eK, if_true, Tree.rowsF, Tree.rowsFL]
        | cons k ks =>
          have hne : h.kids i ≠ [] := by rw [eK]; simp
          obtain ⟨td3, g3⟩ := ihT (g.has Flags.linkRoot) false [] (d + 1) [] (.none :: .it rest' :: st) (tagDict h i) (td' :: tags) (fun T hT => RT.kid hT) (by
              intro T hT
              have : T.id ∈ h.kids i := by rw [eK]; exact List.mem_map_of_mem hT
              rw [← rep_tagOf (RT.kid hT), tdGet_tagDict W this]; simp)
          have s1 : dumpStepF f h ⟨.it (.item i :: rest') :: st, d, td :: tags⟩ =
              .more [(d, (seen.count t : Int), .item i)] ⟨.it ((Tree.itemsL (g.has Flags.linkRoot) false [] (k :: ks)).filter f) :: .none :: .it rest' :: st, d + 1, tagDict h i :: td' :: tags⟩ := by
            simp only [dumpStepF, DItem.tag, et, b1, if_neg hne, eD]
          refine Goes.cons s1 ?_
          have := g3.trans (Goes.cons (o := []) rfl (Goes.cons (o := []) rfl (Goes.refl _)) : Goes (dumpStepF f h) ⟨.it [] :: .none :: .it rest' :: st, d + 1, td3 :: td' :: tags⟩ _ ⟨.it rest' :: st, d, td' :: tags⟩)
          simp only [List.append_nil] at this
          exact this
      exact ⟨td2, first.trans gr⟩

/-- the generator behind `dumps(filter_method=f)` yields the rows of what is stored, in pre-order -/
theorem dumpRowsF_delivers {h : Heap} (W : WF h) (f : DItem → Bool) {T : Tree} (R : Rep h T) :
    Delivers (fun n => dumpRowsF f n h T.id) (Tree.rowsFL f false false [] 1 [] T.kids, .ok ()) := by
  have eK := R.kids
  obtain ⟨i, t, v, g, l, ks⟩ := T
  simp only [Tree.kids, Tree.id] at eK ⊢
  unfold dumpRowsF
  cases ks with
  | nil =>
    simp only [List.map_nil] at eK
    simp only [eK, if_true, Tree.rowsFL]
    exact Delivers.const _
  | cons k ks =>
    have hne : h.kids i ≠ [] := by rw [eK]; simp
    simp only [if_neg hne]
    obtain ⟨td', gg⟩ := dump_spec W f (k :: ks) false false [] 1 [] [] (tagDict h i) [] (fun T hT => R.kid hT) (by
      intro T hT
      have hm : T.id ∈ h.kids i := by rw [eK]; exact List.mem_map_of_mem hT
      rw [← rep_tagOf (R.kid hT), tdGet_tagDict W hm]; simp)
    rw [eK, ← itemsL_plain false []]
    have := gg.trans (o' := []) (Goes.one (o := []) (t := ⟨[], 1, [td']⟩) rfl)
    have := (this.finish rfl).map (fun r => (r.1, r.2.map fun _ => ()))
    simp only [List.append_nil] at this
    exact this

/-- without filter everything passes -/
theorem dumpStep_all (h : Heap) : dumpStepF (fun _ => true) h = dumpStep h := by
  funext s; simp only [dumpStepF, dumpStep, List.filter_true]; rfl

theorem dumpRows_all (n : Nat) (h : Heap) (x : Id) : dumpRowsF (fun _ => true) n h x = dumpRows n h x := by
  simp only [dumpRowsF, dumpRows, dumpStep_all, List.filter_true]

/-! ### the JSON rows -/

mutual
/-- the items of the tree carry the tags, values, flags and links written in the tree (nothing is said about their children) -/
def Heads (h : Heap) : Tree → Prop
  | .node i t v f l ks => h.tag i = t ∧ (h.node i).value = v ∧ h.flags i = f ∧ (h.node i).link = l ∧ HeadsL h ks
def HeadsL (h : Heap) : List Tree → Prop
  | [] => True
  | k :: ks => Heads h k ∧ HeadsL h ks
end

theorem headsL_iff (h : Heap) (l : List Tree) : HeadsL h l ↔ ∀ k ∈ l, Heads h k := by
  induction l with
  | nil => simp [HeadsL]
  | cons k ks ih => simp [HeadsL, ih]

theorem Heads.kid {h : Heap} {T : Tree} (R : Heads h T) {k : Tree} (hk : k ∈ T.kids) : Heads h k := by
  cases T; exact (headsL_iff h _).1 R.2.2.2.2 k hk

theorem Rep.heads {h : Heap} {T : Tree} (R : Rep h T) : Heads h T := by
  induction T using Tree.ind with
  | H i t v f l ks ih => exact ⟨R.1, R.2.1, R.2.2.1, R.2.2.2.1, (headsL_iff h ks).2 fun k hk => ih k hk (R.kid hk)⟩

theorem supported_row {N : Names} {E : Env} {h : Heap} {T : Tree} (R : Heads h T) (hs : T.shape.supported N E) (d : Nat) (f : Int) :
    ∃ j, rowJson N E h (d, f, .item T.id) = .ok j ∧ j.ok ∧ RowOf N E d T.shape j := by
  obtain ⟨i, t, v, g, l, ks⟩ := T
  obtain ⟨r1, r2, r3, r4, -⟩ := R
  simp only [Tree.shape, Shape.supported] at hs
  have hlk : LinkOK N E g l := hs.2.2.1
  have ea : itemArgs N h i = .ok (shapeArgs N t v g l) := by
    simp only [itemArgs, shapeArgs, r1, r2, r3, r4]
    by_cases hr : g.has Flags.linkRoot = true
    · obtain ⟨-, lk, rfl, -⟩ := hlk hr
      have hg : g ≠ 0#6 := by rintro rfl; simp [Flags.has, Flags.linkRoot] at hr
      simp [hr, hg]
    · simp [hr]
  obtain ⟨j1, a1, -, -⟩ := Json.toJson_fromJson E _ hs.1
  obtain ⟨j2, b1, -, -⟩ := Json.toJson_fromJson E _ hs.2.1
  have : ∃ js, Json.toJsonL E (shapeArgs N t v g l) = .ok js := by
    by_cases hg : g = 0#6
    · exact ⟨_, by simp only [shapeArgs, hg, if_true, List.append_nil, Json.toJsonL, a1, b1]; rfl⟩
    · have i64 : Json.intOk E.orjson (g.toNat : Int) = true := by
        have : g.toNat < 64 := g.isLt
        simp only [Json.intOk, Bool.or_eq_true, Bool.and_eq_true, decide_eq_true_eq]
        right; omega
      by_cases hr : g.has Flags.linkRoot = true
      · obtain ⟨-, lk, rfl, sl⟩ := hlk hr
        obtain ⟨j3, c1, -, -⟩ := Json.toJson_fromJson E _ sl
        exact ⟨_, by simp only [shapeArgs, hg, hr, if_false, if_true, List.cons_append, List.nil_append, Option.getD_some, Json.toJsonL, a1, b1, c1, Json.toJson, i64]; rfl⟩
      · exact ⟨_, by simp only [shapeArgs, hg, hr, if_false, List.cons_append, List.nil_append, Json.toJsonL, a1, b1, Json.toJson, i64, if_true]; rfl⟩
  obtain ⟨js, hj⟩ := this
  have ok := (args_back hs.1 hs.2.1 hlk hj .null .null).2.2
  refine ⟨.arr (.int d :: .int f :: js), ?_, ?_, f, js, rfl, hj⟩
  · simp only [rowJson, ditemArgs, Tree.id, ea, hj, Except.map]
  · simp only [Json.J.ok, Json.J.okL]; exact ⟨trivial, trivial, ok⟩

/-- the row of a placeholder -/
theorem ph_row {N : Names} {E : Env} (h : Heap) {t : Tag} {k : Int} (ht : Supported E (N.tagPV t)) (hv : Supported E (N.valPV (.int k))) (d : Nat) (f : Int) :
    ∃ j, rowJson N E h (d, f, .ph t k) = .ok j ∧ j.ok ∧ RowOf N E d (.node t (.int k) Flags.placeholder none []) j := by
  obtain ⟨j1, a1, -, -⟩ := Json.toJson_fromJson E _ ht
  obtain ⟨j2, b1, -, -⟩ := Json.toJson_fromJson E _ hv
  have hlk : LinkOK N E Flags.placeholder none := fun hr => by simp [Flags.has, Flags.linkRoot, Flags.placeholder] at hr
  have i64 : Json.intOk E.orjson (Flags.placeholder.toNat : Int) = true := by
    simp only [Json.intOk, Bool.or_eq_true, Bool.and_eq_true, decide_eq_true_eq]
    right; decide
  have ea : shapeArgs N t (.int k) Flags.placeholder none = [N.tagPV t, N.valPV (.int k), .none, .none, .int Flags.placeholder.toNat] := by
    have h1 : Flags.placeholder ≠ 0#6 := by decide
    have h2 : Flags.placeholder.has Flags.linkRoot = false := by decide
    simp only [shapeArgs, h1, h2, if_false, Bool.false_eq_true]; rfl
  obtain ⟨js, hj⟩ : ∃ js, Json.toJsonL E (shapeArgs N t (.int k) Flags.placeholder none) = .ok js := by
    rw [ea]; exact ⟨_, by simp only [Json.toJsonL, a1, b1, Json.toJson, i64, if_true]; rfl⟩
  have ok := (args_back ht hv hlk hj .null .null).2.2
  refine ⟨.arr (.int d :: .int f :: js), ?_, ?_, f, js, rfl, hj⟩
  · rw [ea] at hj
    simp only [rowJson, ditemArgs, hj, Except.map]
  · simp only [Json.J.ok, Json.J.okL]; exact ⟨trivial, trivial, ok⟩

/-- the rows have JSON forms -/
inductive RowsJ (N : Names) (E : Env) (h : Heap) : List (Nat × Int × DItem) → List J → Prop
  | nil : RowsJ N E h [] []
  | cons {r j rs js} : rowJson N E h r = .ok j → j.ok → RowsJ N E h rs js → RowsJ N E h (r :: rs) (j :: js)

theorem RowsJ.append {N : Names} {E : Env} {h : Heap} {rs js rs' js'} (a : RowsJ N E h rs js) (b : RowsJ N E h rs' js') : RowsJ N E h (rs ++ rs') (js ++ js') := by
  induction a with
  | nil => exact b
  | cons e o _ ih => exact .cons e o ih

theorem head_row {N : Names} {E : Env} {h : Heap} {T : Tree} (R : Rep h T) {ks : List Shape} (hs : (Shape.node T.tagOf T.value T.flags T.link ks).supported N E) (d : Nat) (f : Int) :
    ∃ j, rowJson N E h (d, f, .item T.id) = .ok j ∧ j.ok ∧ RowOf N E d (.node T.tagOf T.value T.flags T.link ks) j := by
  obtain ⟨i, t, v, g, l, ts⟩ := T
  obtain ⟨j, e1, e2, e3⟩ := supported_row (h := h) (N := N) (E := E) (T := .node i t v g l []) ⟨R.1, R.2.1, R.2.2.1, R.2.2.2.1, trivial⟩ ⟨hs.1, hs.2.1, hs.2.2.1, trivial⟩ d f
  exact ⟨j, e1, e2, e3⟩

theorem stored_eq (f : DItem → Bool) (T : Tree) : T.stored f = .node T.tagOf T.value T.flags T.link (Tree.storedL f (T.flags.has Flags.linkRoot) false [] T.kids) := by cases T; rfl
theorem saved_eq (f : DItem → Bool) (T : Tree) : T.saved f = .node T.tagOf T.value T.flags T.link (Tree.storedL f false false [] T.kids) := by cases T; rfl
theorem rowsF_eq (f : DItem → Bool) (d n : Nat) (T : Tree) : T.rowsF f d n = (d, (n : Int), .item T.id) :: Tree.rowsFL f (T.flags.has Flags.linkRoot) false [] (d + 1) [] T.kids := by cases T; rfl

/-- the rows of siblings have JSON forms, which are the rows of what is stored -/
def JsonSpec (N : Names) (E : Env) (f : DItem → Bool) (h : Heap) (ts : List Tree) : Prop := ∀ (link add : Bool) (all : List Tag) (d : Nat) (seen : List Tag),
  (∀ T ∈ ts, Rep h T) → Shape.supportedL N E (Tree.storedL f link add all ts) →
    ∃ js, RowsJ N E h (Tree.rowsFL f link add all d seen ts) js ∧ RowsOf N E d (Tree.storedL f link add all ts) js

theorem rowsFL_json {N : Names} {E : Env} {h : Heap} (f : DItem → Bool) (ts : List Tree) : JsonSpec N E f h ts := by
  refine Tree.rec_1 (motive_1 := fun T => JsonSpec N E f h T.kids) (motive_2 := JsonSpec N E f h) ?_ ?_ ?_ ts
  · intro i t v f l ks ih; exact ih
  · intro link add all d seen _ _; exact ⟨[], .nil, .nil d⟩
  · intro T rest ihT ihR link add all d seen R S
    have R' : ∀ T ∈ rest, Rep h T := fun T hT => R T (by simp [hT])
    have RT := R T (by simp)
    simp only [Tree.storedL, Tree.rowsFL] at S ⊢
    by_cases hp : (link && add && T.flags.has Flags.linked) = true
    · simp only [hp, if_true] at S ⊢
      by_cases hf : f (.ph T.tagOf (all.count T.tagOf)) = true
      · simp only [hf, if_true, List.cons_append, List.nil_append] at S ⊢
        obtain ⟨j, e1, e2, e3⟩ := ph_row h S.1.1 S.1.2.1 d (seen.count T.tagOf : Nat)
        obtain ⟨js, b1, b2⟩ := ihR link false (all ++ [T.tagOf]) d (seen ++ [T.tagOf]) R' S.2
        exact ⟨j :: js, .cons e1 e2 b1, by have := RowsOf.cons e3 (.nil _) b2; simpa using this⟩
      · simp only [hf, if_false, Bool.false_eq_true, List.nil_append] at S ⊢
        exact ihR link false (all ++ [T.tagOf]) d seen R' S
    · simp only [hp, if_false, Bool.false_eq_true] at S ⊢
      by_cases hf : f (.item T.id) = true
      · simp only [hf, if_true, List.cons_append, List.nil_append, rowsF_eq] at S ⊢
        have S1 : (T.stored f).supported N E := S.1
        rw [stored_eq] at S1 ⊢
        obtain ⟨j, e1, e2, e3⟩ := head_row RT S1 d (seen.count T.tagOf : Nat)
        obtain ⟨js1, a1, a2⟩ := ihT (T.flags.has Flags.linkRoot) false [] (d + 1) [] (fun k hk => RT.kid hk) S1.2.2.2
        obtain ⟨js2, b1, b2⟩ := ihR link true (all ++ [T.tagOf]) d (seen ++ [T.tagOf]) R' S.2
        exact ⟨j :: (js1 ++ js2), (RowsJ.cons e1 e2 a1).append b1, .cons e3 a2 b2⟩
      · simp only [hf, if_false, Bool.false_eq_true, List.nil_append] at S ⊢
        exact ihR link true (all ++ [T.tagOf]) d seen R' S

/-! ### the text -/

theorem spaces_ws (n : Nat) : Json.ws (List.replicate n ' ') := by
  intro c hc
  have := List.eq_of_mem_replicate hc
  subst this; rfl

theorem rowText_eq {N : Names} {E : Env} {h : Heap} {r : Nat × Int × DItem} {j : J} (st : Style) (e : rowJson N E h r = .ok j) :
    rowText N E st h r = .ok (List.replicate (2 * r.1) ' ' ++ Json.dumps st j) := by simp [rowText, e, Except.map]

theorem rowTexts_elems {N : Names} {E : Env} {h : Heap} (st : Style) {rs : List (Nat × Int × DItem)} {js : List J} (H : RowsJ N E h rs js) :
    ∃ lines, rowTexts N E st h rs = .ok lines ∧ (js ≠ [] → ∀ w w', Json.ws w → Json.ws w' → Elems js (w ++ (joinLines lines ++ w'))) := by
  induction H with
  | nil => exact ⟨[], rfl, by simp⟩
  | @cons r j rs js e ok H ih =>
    obtain ⟨lines, l1, l2⟩ := ih
    refine ⟨_ :: lines, by simp only [rowTexts, rowText_eq st e, l1]; rfl, fun _ w w' hw hw' => ?_⟩
    have wsi : Json.ws (w ++ List.replicate (2 * r.1) ' ') := by
      intro c hc
      rcases List.mem_append.1 hc with hc | hc
      · exact hw c hc
      · exact spaces_ws _ c hc
    cases lines with
    | nil =>
      cases H with
      | nil =>
        have := Elems.one wsi (Json.pr_txt st j 0 ok) hw'
        simpa [joinLines, Json.dumps] using this
      | cons e' _ H' =>
        simp only [rowTexts, rowText_eq st e'] at l1
        split at l1 <;> simp at l1
    | cons x xs =>
      cases H with
      | nil => simp [rowTexts] at l1
      | cons e' ok' H' =>
        have := Elems.cons (w' := []) wsi (Json.pr_txt st j 0 ok) (by simp [Json.ws]) (l2 (by simp) ['\n'] w' (by simp [Json.ws, Json.isWs]) hw')
        simpa [joinLines, Json.dumps] using this

/-- the data section is a text of the array of rows of what is stored -/
theorem dataTextF_delivers {N : Names} {E : Env} {h : Heap} (W : WF h) (f : DItem → Bool) {T : Tree} (R : Rep h T) (hk : (T.saved f).kids ≠ []) (hs : (T.saved f).supported N E) (st : Style) :
    ∃ d rows, Delivers (fun n => dataTextF f n N E st h T.id) (.ok d) ∧ Txt (.arr rows) d ∧ RowsOf N E 0 [T.saved f] rows := by
  rw [saved_eq] at hk hs ⊢
  obtain ⟨j, e1, e2, e3⟩ := head_row R hs 0 0
  obtain ⟨js, a1, a2⟩ := rowsFL_json f T.kids false false [] 1 [] (fun k hk => R.kid hk) hs.2.2.2
  obtain ⟨lines, l1, l2⟩ := rowTexts_elems st a1
  have hjs : js ≠ [] := by
    intro e; rw [e] at a2
    simp only [Shape.kids] at hk
    revert a2 hk
    generalize Tree.storedL f false false [] T.kids = l
    intro hk a2
    cases a2; exact hk rfl
  obtain ⟨n0, D⟩ := dumpRowsF_delivers W f R
  refine ⟨'[' :: '\n' :: (Json.dumps st j ++ ',' :: '\n' :: (joinLines lines ++ ['\n', ']'])), j :: js, ⟨n0, fun n hn => ?_⟩, ?_, ?_⟩
  · simp only [dataTextF, D n hn, Option.map_some, rowText_eq st e1, l1, Nat.mul_zero, List.replicate_zero, List.nil_append]
  · have := Txt.arr (Elems.cons (w := ['\n']) (w' := []) (by simp [Json.ws, Json.isWs]) (Json.pr_txt st j 0 e2) (by simp [Json.ws]) (l2 hjs ['\n'] ['\n'] (by simp [Json.ws, Json.isWs]) (by simp [Json.ws, Json.isWs])))
    simpa [Json.dumps] using this
  · have := RowsOf.cons (N := N) (E := E) (ks := []) (rs2 := []) e3 (by exact a2) (.nil 0)
    simpa using this

theorem dataText_all (n : Nat) (N : Names) (E : Env) (st : Style) (h : Heap) (x : Id) : dataTextF (fun _ => true) n N E st h x = dataText n N E st h x := by
  simp only [dataTextF, dataText, dumpRows_all]; rfl

end ITree
