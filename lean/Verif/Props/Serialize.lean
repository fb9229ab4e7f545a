import Verif.Proofs.Serialize
import Verif.Proofs.DumpFilter
import Verif.Props.Demo
/-
C33, C34, C35: dump, load and value conversion.

The texts are the real ones: `dumpsText` prints JSON (json or orjson style), `loadsText` parses it (`Model/Json`, `Model/Serialize`).  `N` names the Python objects that are tags and values of the heap model, `E` is the
Python environment of the converter (JSON library, equality, constructors); all theorems hold for every `N`, `E`, every hash function `sha` and every text style.
-/
namespace ITree

open Json (J PV Env SErr Style Supported Txt Elems)

/-! ### C34 -/

/-- C34: every supported value – arbitrarily nested – is converted to a JSON document, printed, parsed and converted back to the same value and type. -/
theorem C34_value_round_trip (E : Env) (st : Style) (v : PV) (h : Supported E v) :
    ∃ j, Json.toJson E v = .ok j ∧ (Json.loads (Json.dumps st j)).map (Json.fromJson E) = some (.ok v) := by
  obtain ⟨j, h1, h2, h3⟩ := Json.toJson_fromJson E v h
  exact ⟨j, h1, by rw [Json.loads_dumps st j h2, Option.map_some, h3]⟩

/-- a converter environment: json library, no classes -/
def envJ : Env := ⟨false, fun _ _ => false, fun _ _ _ => .error .type⟩
/-- the same with orjson -/
def envO : Env := { envJ with orjson := true }
def styJ : Style := ⟨true, true⟩
def styO : Style := ⟨false, false⟩

example : Supported envJ (.seq .list [.none, .bool true, .int (-5), .inf, .str "a\"\n€".toList, .bytes [0, 255], .const 0, .seq .tuple [.int 1, .seq .set [.int 2, .int 3]],
    .map "OrderedDict".toList [(.str "k".toList, .seq .deque [])]]) := by
  simp [Supported, Json.SupportedL, Json.SupportedM, Json.Distinct, envJ, Json.hashable]

/-- Disagreement (orjson installed): infinite floats are dumped as `null` and come back as None. -/
theorem C34_orjson_inf_wrong (eq : PV → PV → Bool) (b : List Char → List Char → List PV → Except SErr PV) (st : Style) :
    let E : Env := ⟨true, eq, b⟩
    ∃ j, Json.toJson E .inf = .ok j ∧ (Json.loads (Json.dumps st j)).map (Json.fromJson E) = some (.ok .none) := by
  refine ⟨.arr [.null, Json.typeNo 0], rfl, ?_⟩
  rw [Json.loads_dumps st _ (by simp [Json.J.ok, Json.J.okL, Json.typeNo])]
  simp [Json.fromJson, Json.dispatch, Json.typeKey, Json.typeNo, Json.raw]

/-- Disagreement (orjson installed): integers that do not fit into 64 bit are refused. -/
theorem C34_orjson_bigint_wrong (eq : PV → PV → Bool) (b : List Char → List Char → List PV → Except SErr PV) (z : Int) (hz : z < -9223372036854775808 ∨ 18446744073709551615 < z) :
    Json.toJson ⟨true, eq, b⟩ (.int z) = .error .type := by
  have : Json.intOk true z = false := by simp only [Json.intOk, Bool.not_true, Bool.false_or]; rcases hz with h | h <;> simp <;> omega
  simp [Json.toJson, this]

/-! ### C33 -/

/-- the item `y` can be dumped: tag and value are supported; if it is a link root, it has a link the converter supports, is not marked for loading its links and has only local children -/
def DumpableAt (N : Names) (E : Env) (h : Heap) (y : Id) : Prop :=
  Supported E (N.tagPV (h.tag y)) ∧ Supported E (N.valPV (h.node y).value) ∧
    (h.isLinkRoot y = true → (h.flags y).has Flags.loadLinks = false ∧ (∃ lk, (h.node y).link = some lk ∧ Supported E (linkPV N lk)) ∧ ∀ c ∈ h.kids y, (h.flags c).has Flags.linked = false)

/-- the items of the tree below (and with) `x` can be dumped -/
def Dumpable (N : Names) (E : Env) (h : Heap) (x : Id) : Prop := ∀ y, Below h x y → DumpableAt N E h y

/-- the link data of `y` is what the constructor of a link root sets: only link roots have a link, and it is not loaded -/
def PlainLink (h : Heap) (y : Id) : Prop := ∀ l, (h.node y).link = some l → h.isLinkRoot y = true ∧ l = { file := l.file, path := l.path }

theorem PlainLink.kept {h : Heap} {y : Id} (p : PlainLink h y) : keptLink (h.flags y) (h.node y).link = (h.node y).link := by
  cases e : (h.node y).link with
  | none => simp [keptLink]
  | some l =>
    obtain ⟨a, b⟩ := p l e
    have a : (h.flags y).has Flags.linkRoot = true := a
    simp only [keptLink, a, if_true, Option.map_some, Option.some.injEq]
    exact b.symm

theorem DumpableAt.supported {N : Names} {E : Env} {h : Heap} {y : Id} (d : DumpableAt N E h y) :
    Supported E (N.tagPV (h.tag y)) ∧ Supported E (N.valPV (h.node y).value) ∧ LinkOK N E (h.flags y) (h.node y).link := ⟨d.1, d.2.1, fun hr => ⟨(d.2.2 hr).1, (d.2.2 hr).2.1⟩⟩

/-- loading a dump gives what was stored, in any consistent heap -/
theorem load_saved {ms2 : ModelSet} {h h2 : Heap} (W : WF h) (F : Forest h) (H2 : Reach ms2 h2) (f : DItem → Bool) (sha : List Char → List Char) (N : Names) (E : Env) (st : Style) (typeName : List Char)
    (addHeader calcHash chk : Bool) {x : Id} (hk : ((h.tree x).saved f).kids ≠ []) (S : ((h.tree x).saved f).supported N E) :
    ∃ text, Delivers (fun n => dumpsTextF f sha n N E st typeName addHeader calcHash h x) (.ok text) ∧
      ∃ h3 y, loadsText heapBuilder sha N E chk h2 text = (h3, .ok y) ∧ Reach ms2 h3 ∧ Unchanged h2 h3 ∧ h3.par y = none ∧ (∀ j, Below h3 y j → h2.next ≤ j) ∧
        (h3.tree y).shape = ((h.tree x).saved f).restored ∧ (AllFresh h2 → AllFresh h3) := by
  have R := tree_rep W F x
  have ei := tree_id h x
  obtain ⟨d, rows, D, tx, ro⟩ := dataTextF_delivers W f R hk S st
  rw [ei] at D
  have D2 := D.map (fun r => r.map fun d => if addHeader then withHeader st typeName (if calcHash then some (sha d) else none) d else d)
  refine ⟨_, D2, ?_⟩
  obtain ⟨h3, y, l1, l2⟩ := fromRaw_spec (made_law ms2 h2) ro hk S (Made.start H2)
  have chkd : loadCheck sha chk (if addHeader then withHeader st typeName (if calcHash then some (sha d) else none) d else d) = .ok rows := by
    cases addHeader with
    | true => exact loadCheck_header sha chk st typeName calcHash tx
    | false => exact loadCheck_plain sha chk tx fun hd r e => rowsOf_noHeader ro hd [r] e
  obtain ⟨T, t1, t2, t3, t4, t5, t6⟩ := l2.tree (y, ((h.tree x).saved f).restored) (by simp)
  simp only at t1 t2 t4 t5
  have tt : h3.tree y = T := by rw [← t1]; exact t3.tree l2.reach.core.wf
  refine ⟨h3, y, ?_, l2.reach, l2.same, t4, fun j hj => t6 j ?_, by rw [tt]; exact t2, l2.fresh⟩
  · simp only [loadsText]
    rw [chkd]; exact l1
  · exact (below_iff_ids t3 j).1 (by rw [t1]; exact hj)

/-- The item `y` can be stored: tag and value are supported by the serializer; if it is a link root, it has a link the converter supports and is not marked for loading its links, and placeholders for its children are
supported: their tags, and numbers below the number of children. -/
def StorableAt (N : Names) (E : Env) (h : Heap) (y : Id) : Prop :=
  Supported E (N.tagPV (h.tag y)) ∧ Supported E (N.valPV (h.node y).value) ∧
    (h.isLinkRoot y = true → (h.flags y).has Flags.loadLinks = false ∧ (∃ lk, (h.node y).link = some lk ∧ Supported E (linkPV N lk)) ∧
      (∀ c ∈ h.kids y, Supported E (N.tagPV (h.tag c))) ∧ ∀ n < (h.kids y).length, Supported E (N.valPV (.int n)))

theorem storedL_supported {N : Names} {E : Env} (f : DItem → Bool) (link : Bool) (ts : List Tree) : ∀ (add : Bool) (all : List Tag), (∀ k ∈ ts, onItems f k.id = true → (k.stored f).supported N E) →
    (link = true → (∀ k ∈ ts, Supported E (N.tagPV k.tagOf)) ∧ ∀ n < all.length + ts.length, Supported E (N.valPV (.int n))) → Shape.supportedL N E (Tree.storedL f link add all ts) := by
  induction ts with
  | nil => intro _ _ _ _; trivial
  | cons k ks ih =>
    intro add all hk hl
    have ih' := fun b => ih b (all ++ [k.tagOf]) (fun k hm => hk k (by simp [hm])) fun e => ⟨fun k hm => (hl e).1 k (by simp [hm]), fun n hn => (hl e).2 n (by simp at hn ⊢; omega)⟩
    simp only [Tree.storedL]
    split
    · next e =>
      simp only [Bool.and_eq_true] at e
      split
      · refine ⟨⟨(hl e.1.1).1 k (by simp), (hl e.1.1).2 _ ?_, by simp [Flags.has, Flags.placeholder, Flags.linkRoot], trivial⟩, ih' false⟩
        have := List.count_le_length (a := k.tagOf) (l := all)
        simp only [List.length_cons]; omega
      · exact ih' false
    · split
      · next hf => exact ⟨hk k (by simp) hf, ih' true⟩
      · exact ih' true

theorem stored_supported {N : Names} {E : Env} {h : Heap} (f : DItem → Bool) {x : Id} (hd : ∀ y, Stays (onItems f) h x y → StorableAt N E h y) {T : Tree} (R : Rep h T) :
    Stays (onItems f) h x T.id → (T.stored f).supported N E ∧ (T.saved f).supported N E := by
  induction T using Tree.ind with
  | H i t v g l ks ih =>
    intro K
    have D := hd i K
    obtain ⟨e1, e2, e3, e4, -⟩ := id R
    have eK : h.kids i = ks.map Tree.id := R.kids
    simp only [StorableAt, Heap.isLinkRoot, e1, e2, e3, e4, eK] at D
    have hkids : ∀ k ∈ ks, onItems f k.id = true → (k.stored f).supported N E := fun k hk hf => (ih k hk (R.kid hk) (.kid K (by rw [show (Tree.node i t v g l ks).id = i from rfl, eK]; exact List.mem_map_of_mem hk) hf)).1
    have hL : LinkOK N E g l := fun hr => ⟨(D.2.2 hr).1, (D.2.2 hr).2.1⟩
    refine ⟨⟨D.1, D.2.1, hL, storedL_supported f _ ks _ _ hkids fun hr => ⟨fun k hk => ?_, fun n hn => ?_⟩⟩, ⟨D.1, D.2.1, hL, storedL_supported f _ ks _ _ hkids (by simp)⟩⟩
    · have := (D.2.2 hr).2.2.1 k.id (List.mem_map_of_mem hk)
      rwa [rep_tagOf (R.kid hk)] at this
    · exact (D.2.2 hr).2.2.2 n (by simpa using hn)

/-- a child of the dumped item that passes the filter is stored -/
theorem saved_ne {h : Heap} {T : Tree} (R : Rep h T) (f : DItem → Bool) (hk : ∃ c ∈ h.kids T.id, f (.item c) = true) : (T.saved f).kids ≠ [] := by
  rw [saved_eq]
  simp only [Shape.kids]
  obtain ⟨c, hc, hf⟩ := hk
  rw [R.kids] at hc
  obtain ⟨k, hk, rfl⟩ := List.mem_map.1 hc
  generalize T.kids = ts at hk
  have : ∀ (ts : List Tree) add all, k ∈ ts → Tree.storedL f false add all ts ≠ [] := by
    intro ts
    induction ts with
    | nil => intro _ _ h; cases h
    | cons a ts ih =>
      intro add all hm
      simp only [Tree.storedL, Bool.false_and, Bool.false_eq_true, if_false]
      rcases List.mem_cons.1 hm with rfl | hm
      · simp [hf]
      · intro e
        exact ih _ _ hm (List.append_eq_nil_iff.1 e).2
  exact this ts _ _ hk

theorem stays_below {f : Id → Bool} {h : Heap} {x y : Id} (s : Stays f h x y) : Below h x y := by
  induction s with
  | root => exact .refl
  | kid _ hc _ ih => exact .step ih hc

theorem dumpsText_all (sha : List Char → List Char) (n : Nat) (N : Names) (E : Env) (st : Style) (typeName : List Char) (addHeader calcHash : Bool) (h : Heap) (x : Id) :
    dumpsTextF (fun _ => true) sha n N E st typeName addHeader calcHash h x = dumpsText sha n N E st typeName addHeader calcHash h x := by
  simp only [dumpsTextF, dumpsText, dataText_all]

/-- C33 (what is stored, loaded links included; in part: link roots are not marked for loading). For every consistent heap and every item with children whose tags, values and links are supported: `dumps` delivers a text; `loads` of this text – in any reachable state `h2` –
makes a new parentless tree of new items; nothing existing in `h2` changes; the new tree is what `Tree.saved` says, up to the flags the constructor pushes down.  This holds for trees with loaded links: of the children of a
link root some are stored completely and some as placeholders (see `C33_linked_stored_wrong`). -/
theorem C33_stored_partial {ms2 : ModelSet} {h h2 : Heap} (W : WF h) (F : Forest h) (H2 : Reach ms2 h2) (sha : List Char → List Char) (N : Names) (E : Env) (st : Style) (typeName : List Char)
    (addHeader calcHash chk : Bool) {x : Id} (hk : h.kids x ≠ []) (hd : ∀ y, Below h x y → StorableAt N E h y) :
    ∃ text, Delivers (fun n => dumpsText sha n N E st typeName addHeader calcHash h x) (.ok text) ∧
      ∃ h3 y, loadsText heapBuilder sha N E chk h2 text = (h3, .ok y) ∧ Reach ms2 h3 ∧ Unchanged h2 h3 ∧ h3.par y = none ∧ (∀ j, Below h3 y j → h2.next ≤ j) ∧
        (h3.tree y).shape = ((h.tree x).saved fun _ => true).restored := by
  have R := tree_rep W F x
  have ei := tree_id h x
  obtain ⟨text, D, h3, y, e1, e2, e3, e4, e5, e6, -⟩ := load_saved W F H2 (fun _ => true) sha N E st typeName addHeader calcHash chk (x := x)
    (saved_ne R _ (by rw [ei]; obtain ⟨c, hc⟩ := List.exists_mem_of_ne_nil _ hk; exact ⟨c, hc, rfl⟩)) (stored_supported (fun _ => true) (fun y hy => hd y (stays_below hy)) R (by rw [ei]; exact .root)).2
  simp only [dumpsText_all] at D
  exact ⟨text, D, h3, y, e1, e2, e3, e4, e5, e6⟩

/-- `C33_load_shape` and: stored family positions stay true -/
theorem load_shape {ms ms2 : ModelSet} {h h2 : Heap} (H : Reach ms h) (H2 : Reach ms2 h2) (sha : List Char → List Char) (N : Names) (E : Env) (st : Style) (typeName : List Char)
    (addHeader calcHash chk : Bool) {x : Id} (hk : h.kids x ≠ []) (hd : Dumpable N E h x) :
    ∃ text, Delivers (fun n => dumpsText sha n N E st typeName addHeader calcHash h x) (.ok text) ∧
      ∃ h3 y, loadsText heapBuilder sha N E chk h2 text = (h3, .ok y) ∧ Reach ms2 h3 ∧ Unchanged h2 h3 ∧ h3.par y = none ∧ (∀ j, Below h3 y j → h2.next ≤ j) ∧
        (h3.tree y).shape = (h.tree x).shape.restored ∧ (AllFresh h2 → AllFresh h3) := by
  have W := H.core.wf
  have R := tree_rep W H.core.forest x
  have ei := tree_id h x
  have eb : ∀ y ∈ (h.tree x).ids, Below h x y := fun y hy => by have := (below_iff_ids R y).2 hy; rwa [ei] at this
  have P : ∀ y ∈ (h.tree x).ids, LocalKids h y := fun y hy hr => ((hd y (eb y hy)).2.2 hr).2.2
  have S := supported_of (N := N) (E := E) R fun y hy => (hd y (eb y hy)).supported
  have e := saved_local (fun _ => true) R (by rw [prune_all]; exact P)
  rw [prune_all] at e
  have := load_saved W H.core.forest H2 (fun _ => true) sha N E st typeName addHeader calcHash chk (x := x)
    (saved_ne R _ (by rw [ei]; obtain ⟨c, hc⟩ := List.exists_mem_of_ne_nil _ hk; exact ⟨c, hc, rfl⟩)) (by rw [e]; exact S)
  simp only [dumpsText_all, e] at this
  exact this

/-- C33 (what is loaded). For every reachable state and every dumpable item with children: `dumps` (with or without header, with or without hash) delivers a text; `loads` of this text – in any reachable
state `h2`, e.g. another process – makes a new parentless tree of new items; nothing existing in `h2` changes; the new tree has the tags, values, order and structure of the dumped one, link roots keep file and path of their
links (not loaded); the flags are those of the dumped one except that read-only-tree and load-links of an item are also set in everything below it. -/
theorem C33_load_shape {ms ms2 : ModelSet} {h h2 : Heap} (H : Reach ms h) (H2 : Reach ms2 h2) (sha : List Char → List Char) (N : Names) (E : Env) (st : Style) (typeName : List Char)
    (addHeader calcHash chk : Bool) {x : Id} (hk : h.kids x ≠ []) (hd : Dumpable N E h x) :
    ∃ text, Delivers (fun n => dumpsText sha n N E st typeName addHeader calcHash h x) (.ok text) ∧
      ∃ h3 y, loadsText heapBuilder sha N E chk h2 text = (h3, .ok y) ∧ Reach ms2 h3 ∧ Unchanged h2 h3 ∧ h3.par y = none ∧ (∀ j, Below h3 y j → h2.next ≤ j) ∧
        (h3.tree y).shape = (h.tree x).shape.restored := by
  obtain ⟨text, D, h3, y, e1, e2, e3, e4, e5, e6, -⟩ := load_shape H H2 sha N E st typeName addHeader calcHash chk hk hd
  exact ⟨text, D, h3, y, e1, e2, e3, e4, e5, e6⟩

/-- C33 (partial: links are not loaded; the root has children; every item carries the deep flags of its parent – the disagreements below show that the last two conditions are needed). The loaded tree has exactly
the shape – tags, values, flags, order, nesting – of the dumped one. -/
theorem C33_round_trip_partial {ms ms2 : ModelSet} {h h2 : Heap} (H : Reach ms h) (H2 : Reach ms2 h2) (sha : List Char → List Char) (N : Names) (E : Env) (st : Style) (typeName : List Char)
    (addHeader calcHash chk : Bool) {x : Id} (hk : h.kids x ≠ []) (hd : Dumpable N E h x) (hl : ∀ y, Below h x y → PlainLink h y)
    (hf : ∀ y, Below h x y → ∀ c ∈ h.kids y, h.flags c ||| (h.flags y &&& Flags.deepMask) = h.flags c) :
    ∃ text, Delivers (fun n => dumpsText sha n N E st typeName addHeader calcHash h x) (.ok text) ∧
      ∃ h3 y, loadsText heapBuilder sha N E chk h2 text = (h3, .ok y) ∧ Reach ms2 h3 ∧ Unchanged h2 h3 ∧ h3.par y = none ∧ (∀ j, Below h3 y j → h2.next ≤ j) ∧
        (h3.tree y).shape = (h.tree x).shape := by
  have R := tree_rep H.core.wf H.core.forest x
  have ei := tree_id h x
  have eb : ∀ y ∈ (h.tree x).ids, Below h x y := fun y hy => by have := (below_iff_ids R y).2 hy; rwa [ei] at this
  have C : (h.tree x).shape.closed 0#6 := closed_of R (by simp) (fun y hy => (hl y (eb y hy)).kept) (fun y hy => hf y (eb y hy))
  have e := closed_restored _ (g := 0#6) (by decide) C
  rw [Shape.or_zero] at e
  have := C33_load_shape H H2 sha N E st typeName addHeader calcHash chk hk hd
  rwa [e] at this

/-- the tags of the dumped demo tree: strings, tuples, numbers -/
def dumpCalls : List Call :=
  [.new (.str "root") .noValue [] 0#6, .new (.str "a") (.int 1) [] 0#6, .new (.int 2) (.list [.int 2, .str "x\n", .none]) [] 0#6, .new (.pair (.str "a") (.int 1)) (.dict [(.str "k", .bool true)]) [] 0#6,
   .append 0 (.item 1), .append 0 (.item 2), .append 1 (.item 3), .append 1 (.val (.int 7)), .setTreeReadOnly 0]
def dumpDemo : Heap := run ms0 Heap.empty dumpCalls
theorem dumpDemo_tidy : Tidy ms0 dumpDemo := tidy_run _ .empty (by decide)

theorem below_of_tree {h : Heap} (W : WF h) (F : Forest h) {x : Id} {P : Id → Prop} (H : ∀ y ∈ (h.tree x).ids, P y) : ∀ y, Below h x y → P y := fun y hy => by
  have R := tree_rep W F x
  exact H y ((below_iff_ids R y).1 (by rw [tree_id]; exact hy))

theorem dumpDemo_dumpable (E : Env) : Dumpable stdNames E dumpDemo 0 := by
  refine below_of_tree dumpDemo_tidy.reach.core.wf dumpDemo_tidy.reach.core.forest ?_
  have : (dumpDemo.tree 0).ids = [0, 1, 3, 4, 2] := by decide +kernel
  rw [this]
  intro y hy
  simp only [List.mem_cons, List.not_mem_nil, or_false] at hy
  rcases hy with rfl | rfl | rfl | rfl | rfl
  · rw [DumpableAt]
    have hr : dumpDemo.tag 0 = .str "root" ∧ (dumpDemo.node 0).value = .noValue := ⟨by decide +kernel, rfl⟩
    rw [hr.1, hr.2]; refine ⟨?_, ?_, fun c => absurd c (by decide +kernel)⟩ <;> simp [stdNames, tagObj, valObj, Supported]
  · rw [DumpableAt]
    have hr : dumpDemo.tag 1 = .str "a" ∧ (dumpDemo.node 1).value = .int 1 := ⟨by decide +kernel, rfl⟩
    rw [hr.1, hr.2]; refine ⟨?_, ?_, fun c => absurd c (by decide +kernel)⟩ <;> simp [stdNames, tagObj, valObj, Supported]
  · rw [DumpableAt]
    have hr : dumpDemo.tag 3 = .pair (.str "a") (.int 1) ∧ (dumpDemo.node 3).value = .dict [(.str "k", .bool true)] := ⟨by decide +kernel, rfl⟩
    rw [hr.1, hr.2]; refine ⟨?_, ?_, fun c => absurd c (by decide +kernel)⟩ <;> simp [stdNames, tagObj, valObj, valObjM, Supported, Json.SupportedL, Json.SupportedM, Json.hashable, Json.Distinct]
  · rw [DumpableAt]
    have hr : dumpDemo.tag 4 = .noTag ∧ (dumpDemo.node 4).value = .int 7 := ⟨by decide +kernel, rfl⟩
    rw [hr.1, hr.2]; refine ⟨?_, ?_, fun c => absurd c (by decide +kernel)⟩ <;> simp [stdNames, tagObj, valObj, Supported]
  · rw [DumpableAt]
    have hr : dumpDemo.tag 2 = .int 2 ∧ (dumpDemo.node 2).value = .list [.int 2, .str "x\n", .none] := ⟨by decide +kernel, rfl⟩
    rw [hr.1, hr.2]; refine ⟨?_, ?_, fun c => absurd c (by decide +kernel)⟩ <;> simp [stdNames, tagObj, valObj, valObjL, Supported, Json.SupportedL]

/-- the hypotheses of `C33_round_trip_partial` hold for a read-only tree with three levels -/
example : dumpDemo.kids 0 ≠ [] ∧ Dumpable stdNames envJ dumpDemo 0 ∧ (∀ y, Below dumpDemo 0 y → PlainLink dumpDemo y) ∧
    (∀ y, Below dumpDemo 0 y → ∀ c ∈ dumpDemo.kids y, dumpDemo.flags c ||| (dumpDemo.flags y &&& Flags.deepMask) = dumpDemo.flags c) := by
  have ids : (dumpDemo.tree 0).ids = [0, 1, 3, 4, 2] := by decide +kernel
  refine ⟨by decide, dumpDemo_dumpable envJ, below_of_tree dumpDemo_tidy.reach.core.wf dumpDemo_tidy.reach.core.forest ?_, below_of_tree dumpDemo_tidy.reach.core.wf dumpDemo_tidy.reach.core.forest ?_⟩
  · rw [ids]; intro y hy; simp only [List.mem_cons, List.not_mem_nil, or_false] at hy
    rcases hy with rfl | rfl | rfl | rfl | rfl <;> intro l hl <;> cases hl
  · rw [ids]; decide +kernel

/-- a converter environment that can rebuild objects from class name and arguments -/
def envL : Env := { envJ with build := fun c m args => .ok (.init c m true args) }
/-- a tree with link roots: below the root 0 the link root 1 (file "f", path ["a"]) with the local child 2, and the link root 3 without children -/
def dumpLinks : Heap := run ms0 Heap.empty
  [.new (.str "root") .noValue [] 0#6, .newLink (.str "l") (.int 1) [] 0#6 (some "f") [.str "a"], .append 0 (.item 1), .append 1 (.val (.int 5)), .newLink (.str "l") .noValue [] Flags.readOnlyValue none [.str "b", .int 2], .append 0 (.item 3)]
theorem dumpLinks_tidy : Tidy ms0 dumpLinks := tidy_run _ .empty (by decide +kernel)

/-- the hypotheses of `C33_round_trip_partial` hold for a tree with link roots -/
example : dumpLinks.kids 0 ≠ [] ∧ Dumpable stdNames envL dumpLinks 0 ∧ (∀ y, Below dumpLinks 0 y → PlainLink dumpLinks y) ∧ dumpLinks.isLinkRoot 1 = true ∧
    (∀ y, Below dumpLinks 0 y → ∀ c ∈ dumpLinks.kids y, dumpLinks.flags c ||| (dumpLinks.flags y &&& Flags.deepMask) = dumpLinks.flags c) := by
  have B := fun P => below_of_tree dumpLinks_tidy.reach.core.wf dumpLinks_tidy.reach.core.forest (x := 0) (P := P)
  have ids : (dumpLinks.tree 0).ids = [0, 1, 2, 3] := by decide +kernel
  rw [ids] at B
  refine ⟨by decide, B _ ?_, B _ ?_, by decide +kernel, B _ ?_⟩
  · intro y hy
    simp only [List.mem_cons, List.not_mem_nil, or_false] at hy
    rcases hy with rfl | rfl | rfl | rfl
    · rw [DumpableAt]
      have hr : dumpLinks.tag 0 = .str "root" ∧ (dumpLinks.node 0).value = .noValue := ⟨by decide +kernel, rfl⟩
      rw [hr.1, hr.2]; refine ⟨?_, ?_, fun c => absurd c (by decide +kernel)⟩ <;> simp [stdNames, tagObj, valObj, Supported]
    · rw [DumpableAt]
      have hr : dumpLinks.tag 1 = .str "l" ∧ (dumpLinks.node 1).value = .int 1 := ⟨by decide +kernel, rfl⟩
      rw [hr.1, hr.2]
      refine ⟨?_, ?_, fun _ => ⟨by decide +kernel, ⟨⟨some "f", [.str "a"], false, [], [], none, none⟩, by decide +kernel, ?_⟩, by decide +kernel⟩⟩ <;> simp [stdNames, tagObj, valObj, Supported, Json.SupportedL, linkPV, filePV, envL]
    · rw [DumpableAt]
      have hr : dumpLinks.tag 2 = .noTag ∧ (dumpLinks.node 2).value = .int 5 := ⟨by decide +kernel, rfl⟩
      rw [hr.1, hr.2]; refine ⟨?_, ?_, fun c => absurd c (by decide +kernel)⟩ <;> simp [stdNames, tagObj, valObj, Supported]
    · rw [DumpableAt]
      have hr : dumpLinks.tag 3 = .str "l" ∧ (dumpLinks.node 3).value = .noValue := ⟨by decide +kernel, rfl⟩
      rw [hr.1, hr.2]
      refine ⟨?_, ?_, fun _ => ⟨by decide +kernel, ⟨⟨none, [.str "b", .int 2], false, [], [], none, none⟩, by decide +kernel, ?_⟩, by decide +kernel⟩⟩ <;> simp [stdNames, tagObj, valObj, Supported, Json.SupportedL, linkPV, filePV, envL]
  · intro y hy l hl
    have : ((dumpLinks.node y).link.all fun l => dumpLinks.isLinkRoot y && decide (l = { file := l.file, path := l.path })) = true := by
      clear hl; revert y; decide +kernel
    rw [hl] at this
    simpa using this
  · decide +kernel

/-- Disagreement: the dump of a tree whose root has no children is no JSON text (`[row,\n\n]`) – `loads` fails for every childless root. -/
theorem C33_childless_wrong {ms : ModelSet} {h : Heap} (H : Reach ms h) {σ ι : Type} (B : Builder σ ι) (s : σ) (sha : List Char → List Char) (N : Names) (E : Env) (st : Style) (typeName : List Char)
    (addHeader calcHash chk : Bool) {x : Id} (hk : h.kids x = []) (hd : Dumpable N E h x) :
    ∃ text, Delivers (fun n => dumpsText sha n N E st typeName addHeader calcHash h x) (.ok text) ∧ loadsText B sha N E chk s text = (s, .error .json) := by
  have W := H.core.wf
  have R := tree_rep W H.core.forest x
  have ei := tree_id h x
  have eb : ∀ y ∈ (h.tree x).ids, Below h x y := fun y hy => by have := (below_iff_ids R y).2 hy; rwa [ei] at this
  have S := supported_of (N := N) (E := E) R fun y hy => (hd y (eb y hy)).supported
  obtain ⟨j, e1, e2, -⟩ := supported_row R.heads S 0 0
  rw [ei] at e1
  have dt : ∀ n, dataText n N E st h x = some (.ok ('[' :: '\n' :: (Json.dumps st j ++ ',' :: '\n' :: ['\n', ']']))) := by
    intro n
    simp only [dataText, dumpRows, hk, if_true, Option.map_some, rowText_eq st e1, rowTexts, Nat.mul_zero, List.replicate_zero, List.nil_append, joinLines]
  exact ⟨_, ⟨0, fun n _ => by simp only [dumpsText, dt n, Option.map_some]; rfl⟩, childless_text_bad B s sha N E st typeName addHeader calcHash chk e2⟩

/-- a tree whose root is read-only while a child is not (after `unset_value_read_only` of the child) -/
def loose : Heap := run ms0 dumpDemo [.setValueReadOnly 1, .unsetValueReadOnly 1]
theorem loose_reach : Reach ms0 loose := (dumpDemo_tidy.reach.step (.setValueReadOnly 1) trivial).step (.unsetValueReadOnly 1) trivial

theorem loose_dumpable (E : Env) : Dumpable stdNames E loose 0 := by
  refine below_of_tree loose_reach.core.wf loose_reach.core.forest ?_
  have ids : (loose.tree 0).ids = (dumpDemo.tree 0).ids := by decide +kernel
  rw [ids]
  intro y hy
  have hb : Below dumpDemo 0 y := (below_iff_ids (tree_rep dumpDemo_tidy.reach.core.wf dumpDemo_tidy.reach.core.forest 0) y).2 hy
  have D := dumpDemo_dumpable E y hb
  have ids : (dumpDemo.tree 0).ids = [0, 1, 3, 4, 2] := by decide +kernel
  rw [ids] at hy
  simp only [List.mem_cons, List.not_mem_nil, or_false] at hy
  rcases hy with rfl | rfl | rfl | rfl | rfl <;> exact ⟨D.1, D.2.1, fun c => absurd c (by decide +kernel)⟩

theorem loose_noLinks : ∀ y, Below loose 0 y → loose.isLinkRoot y = false := by
  refine below_of_tree loose_reach.core.wf loose_reach.core.forest ?_
  decide +kernel

/-- the flags in pre-order -/
def Shape.allFlags : Nat → Shape → List Flags
  | 0, _ => []
  | n + 1, .node _ _ f _ ks => f :: ks.flatMap (Shape.allFlags n)

/-- Disagreement: flags of a child that lacks the read-only flag of its parent (here after `set_tree_read_only` of the root and `unset_value_read_only` of the child) are changed by dump and load: the loaded tree differs
from the dumped one. -/
theorem C33_flags_wrong (sha : List Char → List Char) (st : Style) (typeName : List Char) (addHeader calcHash chk : Bool) :
    ∃ text, Delivers (fun n => dumpsText sha n stdNames envJ st typeName addHeader calcHash loose 0) (.ok text) ∧
      ∃ h3 y, loadsText heapBuilder sha stdNames envJ chk Heap.empty text = (h3, .ok y) ∧ (h3.tree y).shape ≠ (loose.tree 0).shape := by
  obtain ⟨text, a, h3, y, b, -, -, -, -, e⟩ := C33_load_shape loose_reach (Reach.empty (ms := ms0)) sha stdNames envJ st typeName addHeader calcHash chk (x := 0) (by decide +kernel) (loose_dumpable envJ)
  refine ⟨text, a, h3, y, b, ?_⟩
  rw [e]
  intro e
  have := congrArg (Shape.allFlags 3) e
  revert this
  decide +kernel

/-! ### C35 -/

/-- C35: whatever the data section of a text with hash is replaced by – as long as the hash of the new section differs – `loads` with check_hash fails and changes nothing. -/
theorem C35_tampered {σ ι : Type} (B : Builder σ ι) (s : σ) (sha : List Char → List Char) (N : Names) (E : Env) (st : Style) (typeName : List Char) (hash data : List Char) (hne : sha data ≠ hash) :
    ∃ e, loadsText B sha N E true s (withHeader st typeName (some hash) data) = (s, .error e) := by
  have key : ∀ o, Json.loads (withHeader st typeName (some hash) data) = some o → ∃ rest, o = .arr (headerJson typeName (some hash) :: rest) := by
    intro o ho
    generalize hl : (withHeader st typeName (some hash) data).length = L at *
    have hl2 : (withHeader st typeName (some hash) data).length = (Json.dumps st (headerJson typeName (some hash))).length + data.length + 5 := by simp [withHeader]; omega
    have p := parse_first (Json.pr_txt st _ 0 (header_ok typeName (some hash))) ('\n' :: (data ++ [']'])) (L - 1) (by simp only [Json.dumps] at hl2; omega)
    rw [show L - 1 + 2 = L + 1 by omega] at p
    have e3 : withHeader st typeName (some hash) data = '[' :: '\n' :: (Json.pr st 0 (headerJson typeName (some hash)) ++ ',' :: '\n' :: (data ++ [']'])) := rfl
    simp only [Json.loads, hl] at ho
    rw [e3, p] at ho
    cases hp : Json.parseElems (L - 1) ('\n' :: (data ++ [']'])) with
    | none => rw [hp] at ho; simp at ho
    | some q =>
      rw [hp] at ho
      simp only [Option.map_some] at ho
      split at ho
      · simp only [Option.some.injEq] at ho; exact ⟨_, ho.symm⟩
      · simp at ho
  obtain ⟨hd, e1, e2, e3⟩ := version_header typeName (some hash)
  simp only [Option.map_some] at e3
  unfold loadsText loadCheck
  cases hj : Json.loads (withHeader st typeName (some hash) data) with
  | none => exact ⟨.json, rfl⟩
  | some o =>
    obtain ⟨rest, rfl⟩ := key o hj
    rw [e1]
    match rest with
    | [] => exact ⟨.type, rfl⟩
    | [d] =>
      refine ⟨.permission, ?_⟩
      simp only [e2, major_ok, ne_eq, not_true_eq_false, if_false, if_true, e3, hashedPart_header, hne]
    | a :: b :: r => exact ⟨.type, rfl⟩

/-- C35: … in particular for the text made by `dumps` with header and hash; if the new section is a JSON document the exception is PermissionError. -/
theorem C35_tampered_permission {σ ι : Type} (B : Builder σ ι) (s : σ) (sha : List Char → List Char) (N : Names) (E : Env) (st : Style) (typeName : List Char) (hash data : List Char) (j : J)
    (hj : Txt j data) (hne : sha data ≠ hash) : loadsText B sha N E true s (withHeader st typeName (some hash) data) = (s, .error .permission) := by
  have T := withHeader_txt st typeName (some hash) hj
  have L := Json.loads_txt T (w := []) (w' := []) (by simp [Json.ws]) (by simp [Json.ws])
  simp only [List.nil_append, List.append_nil] at L
  obtain ⟨hd, e1, e2, e3⟩ := version_header typeName (some hash)
  simp only [Option.map_some] at e3
  unfold loadsText loadCheck
  rw [L, e1]
  simp only [e2, major_ok, ne_eq, not_true_eq_false, if_false, if_true, e3, hashedPart_header, hne]

/-- C35: whenever `loads` with check_hash accepts a text with header (whatever it looks like), the version of the header has the major part 2.0 and the hash – if the header has one – is the hash of the text
between the end of the header and the final character. -/
theorem C35_accepted {σ ι : Type} (B : Builder σ ι) (s s' : σ) (sha : List Char → List Char) (N : Names) (E : Env) (text : List Char) (i : ι) (hd : List (List Char × J)) (data : J)
    (hp : Json.loads text = some (.arr [.obj hd, data])) (h : loadsText B sha N E true s text = (s', .ok i)) :
    (∃ v, objGet "VERSION".toList hd = some (.str v) ∧ majorVersion v = .ok "2.0".toList) ∧
      ∀ d, objGet "HASH".toList hd = some d → d = .str (sha (hashedPart text)) := by
  unfold loadsText loadCheck at h
  rw [hp] at h
  simp only [if_true] at h
  cases hv : objGet "VERSION".toList hd with
  | none => rw [hv] at h; simp at h
  | some v =>
    rw [hv] at h
    cases v with
    | str v =>
      simp only at h
      cases hm : majorVersion v with
      | error e => rw [hm] at h; simp at h
      | ok m =>
        rw [hm] at h
        simp only at h
        by_cases c : m = "2.0".toList
        · subst c
          refine ⟨⟨v, rfl, hm⟩, fun d hh => ?_⟩
          rw [hh] at h
          simp only [ne_eq, not_true_eq_false, if_false] at h
          cases d with
          | str d =>
            simp only at h
            by_cases c : sha (hashedPart text) = d
            · rw [c]
            · rw [if_neg c] at h; simp at h
          | _ => simp at h
        · rw [if_pos c] at h; simp at h
    | _ => simp at h

/-- C35: a text whose header carries another version is refused (with or without hash check) and nothing is changed. -/
theorem C35_version {σ ι : Type} (B : Builder σ ι) (s : σ) (sha : List Char → List Char) (N : Names) (E : Env) (chk : Bool) (text : List Char) (hd : List (List Char × J)) (data : J)
    (hp : Json.loads text = some (.arr [.obj hd, data]))
    (hv : ∀ v, objGet "VERSION".toList hd = some (.str v) → majorVersion v ≠ .ok "2.0".toList) : ∃ e, loadsText B sha N E chk s text = (s, .error e) := by
  unfold loadsText loadCheck
  rw [hp]
  cases hg : objGet "VERSION".toList hd with
  | none => exact ⟨.key, by simp only [hg]⟩
  | some v =>
    cases v with
    | str v =>
      have := hv v hg
      simp only [hg]
      cases hm : majorVersion v with
      | error e => exact ⟨e, by simp only⟩
      | ok m =>
        have hne : m ≠ "2.0".toList := fun e => this (by rw [hm, e])
        exact ⟨.syntaxErr, by simp only [ne_eq, hne, not_false_eq_true, if_true]⟩
    | _ => exact ⟨.type, by simp only [hg]⟩

/-- a concrete refused text: the data section of a dump was changed -/
example : (loadsText heapBuilder (fun l => l.map fun c => if c = '}' then 'x' else c) stdNames envJ true Heap.empty
    "[\n{\"TYPE\":\"t\",\"VERSION\":\"2.0.0\",\"HASH\":\"[]\"},\n[[0,0,[1,0],[2,0]]]]".toList).2 = .error .permission := by decide +kernel
example : (loadsText heapBuilder id stdNames envJ true Heap.empty "[{\"TYPE\":\"t\",\"VERSION\":\"1.9.0\"},\n[]]".toList).2 = .error .syntaxErr := by decide +kernel

end ITree
