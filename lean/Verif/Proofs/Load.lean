import Verif.Spec.Serialize
import Verif.Proofs.PyJson
import Verif.Proofs.Init
/-
The loader machine rebuilds the tree from its rows, for any builder that obeys the law of the constructor.
-/
namespace ITree

open Json (J PV Env SErr Supported)

/-- the constructor arguments of a shape -/
def shapeArgs (N : Names) (t : Tag) (v : Val) (f : Flags) (l : Option LinkSt) : List PV :=
  [N.tagPV t, N.valPV v] ++ (if f = 0#6 then [] else [.none, if f.has Flags.linkRoot then linkPV N (l.getD {}) else .none, .int f.toNat])

/-- the link an item has after loading -/
def keptLink (f : Flags) (l : Option LinkSt) : Option LinkSt := if f.has Flags.linkRoot then l.map fun l => { file := l.file, path := l.path } else none

/-- the link of a link root can be dumped -/
def LinkOK (N : Names) (E : Env) (f : Flags) (l : Option LinkSt) : Prop := f.has Flags.linkRoot = true → f.has Flags.loadLinks = false ∧ ∃ lk, l = some lk ∧ Supported E (linkPV N lk)

/-- `row` is a row for the root of the shape, at depth `d` -/
def RowOf (N : Names) (E : Env) (d : Nat) : Shape → J → Prop
  | .node t v f l _, row => ∃ (fidx : Int) (js : List J), row = .arr (.int d :: .int fidx :: js) ∧ Json.toJsonL E (shapeArgs N t v f l) = .ok js

/-- the rows of a list of shapes at depth `d`, in pre-order -/
inductive RowsOf (N : Names) (E : Env) : Nat → List Shape → List J → Prop
  | nil (d : Nat) : RowsOf N E d [] []
  | cons {d : Nat} {k : Shape} {ks : List Shape} {r : J} {rs1 rs2 : List J} : RowOf N E d k r → RowsOf N E (d + 1) k.kids rs1 → RowsOf N E d ks rs2 → RowsOf N E d (k :: ks) (r :: (rs1 ++ rs2))

/-- the law of the constructor: in a state with usable items `L ++ M` (with these shapes) the call with the items `M` gives a usable item with the expected shape, and `L` stays usable -/
structure Law {σ ι : Type} (B : Builder σ ι) (Ok : σ → List (ι × Shape) → Prop) : Prop where
  perm : ∀ {s L L'}, Ok s L → L.Perm L' → Ok s L'
  new : ∀ {s L M} (t : Tag) (v : Val) (f : Flags) (lk : Option LinkSt), (∀ l, lk = some l → l = { file := l.file, path := l.path } ∧ f.has Flags.linkRoot = true ∧ f.has Flags.loadLinks = false) → Ok s (M ++ L) →
    Ok (B.new s t v (M.map Prod.fst) f lk).1 (((B.new s t v (M.map Prod.fst) f lk).2, .node t v f lk (M.map fun p => p.2.or (f &&& Flags.deepMask))) :: L)

theorem flags_rt (f : Flags) : flagsArg [.int f.toNat] = .ok f := by
  have : f.toNat < 64 := f.isLt
  simp only [flagsArg]
  rw [if_pos (by omega)]
  simp

section
variable {N : Names} {E : Env}

theorem linkArg_back (l : LinkSt) : linkArg N (filePV l.file) (.seq .list (l.path.map N.tagPV)) = .ok { file := l.file, path := l.path } := by
  have e : (l.path.map N.tagPV).map N.pvTag = l.path := by rw [List.map_map]; simp [Function.comp_def, N.tag_left]
  obtain ⟨file, path, a, b, c, d⟩ := l
  cases file with
  | none => simp only [filePV, linkArg]; simp only at e; rw [e]
  | some s => simp only [filePV, linkArg, String.ofList_toList]; simp only at e; rw [e]

theorem args_back {t : Tag} {v : Val} {f : Flags} {l : Option LinkSt} {js : List J} (ht : Supported E (N.tagPV t)) (hv : Supported E (N.valPV v)) (hl : LinkOK N E f l)
    (h : Json.toJsonL E (shapeArgs N t v f l) = .ok js) (a b : J) :
    leafArgs N E (a :: b :: js) = .ok (t, v, f, keptLink f l) ∧ mainArgs N E (a :: b :: js) = .ok (t, v, f, keptLink f l) ∧ Json.J.okL js := by
  obtain ⟨j1, a1, a2, a3⟩ := Json.toJson_fromJson E _ ht
  obtain ⟨j2, b1, b2, b3⟩ := Json.toJson_fromJson E _ hv
  by_cases hf : f = 0#6
  · subst hf
    simp only [shapeArgs, if_true, List.append_nil, Json.toJsonL, a1, b1, Except.ok.injEq] at h
    subst h
    have k0 : keptLink 0#6 l = none := rfl
    refine ⟨?_, ?_, ?_⟩
    · simp only [leafArgs, List.drop, Json.fromList, a3, b3, ctorArgs, N.tag_left, N.val_left, k0]
    · simp only [mainArgs, List.drop, Json.fromList, a3, b3, restArgs, Except.map, N.tag_left, N.val_left, k0]
    · exact ⟨a2, b2, trivial⟩
  · have i64 : Json.intOk E.orjson (f.toNat : Int) = true := by
      have : f.toNat < 64 := f.isLt
      simp only [Json.intOk, Bool.or_eq_true, Bool.and_eq_true, decide_eq_true_eq]
      right; omega
    have n0 : Json.fromJson E (.arr [.null, Json.typeNo 0]) = .ok .none := by simp [Json.fromJson, Json.dispatch, Json.typeKey, Json.typeNo, Json.raw]
    have i0 : Json.fromJson E (.arr [.int f.toNat, Json.typeNo 0]) = .ok (.int f.toNat) := by simp [Json.fromJson, Json.dispatch, Json.typeKey, Json.typeNo, Json.raw]
    by_cases hr : f.has Flags.linkRoot = true
    · obtain ⟨-, lk, rfl, sl⟩ := hl hr
      obtain ⟨j3, c1, c2, c3⟩ := Json.toJson_fromJson E _ sl
      simp only [shapeArgs, hf, hr, if_false, if_true, List.cons_append, List.nil_append, Option.getD_some, Json.toJsonL, a1, b1, c1, Json.toJson, i64, Except.ok.injEq] at h
      subst h
      have k0 : keptLink f (some lk) = some { file := lk.file, path := lk.path } := by simp only [keptLink, hr, if_true, Option.map_some]
      have r0 : restArgs N [linkPV N lk, .int f.toNat] = .ok (f, some { file := lk.file, path := lk.path }) := by
        simp only [restArgs, linkPV, if_true, linkArg_back, flags_rt]
      refine ⟨?_, ?_, ?_⟩
      · simp only [leafArgs, List.drop, Json.fromList, a3, b3, c3, n0, i0, ctorArgs, r0, Except.map, N.tag_left, N.val_left, k0]
      · simp only [mainArgs, List.drop, Json.fromList, a3, b3, c3, n0, i0, r0, Except.map, N.tag_left, N.val_left, k0]
      · exact ⟨a2, b2, by simp [Json.J.okL, Json.J.ok, Json.typeNo, c2]⟩
    · have hr : f.has Flags.linkRoot = false := by simpa using hr
      simp only [shapeArgs, hf, hr, Bool.false_eq_true, if_false, List.cons_append, List.nil_append, Json.toJsonL, a1, b1, Json.toJson, i64, if_true, Except.ok.injEq] at h
      subst h
      have k0 : keptLink f l = none := by simp only [keptLink, hr, Bool.false_eq_true, if_false]
      refine ⟨?_, ?_, ?_⟩
      · simp only [leafArgs, List.drop, Json.fromList, a3, b3, n0, i0, ctorArgs, restArgs, flags_rt, Except.map, N.tag_left, N.val_left, k0]
      · simp only [mainArgs, List.drop, Json.fromList, a3, b3, n0, i0, restArgs, flags_rt, Except.map, N.tag_left, N.val_left, k0]
      · exact ⟨a2, b2, by simp [Json.J.okL, Json.J.ok, Json.typeNo]⟩

theorem kept_fits {f : Flags} {l : Option LinkSt} (hl : LinkOK N E f l) : ∀ l', keptLink f l = some l' → l' = { file := l'.file, path := l'.path } ∧ f.has Flags.linkRoot = true ∧ f.has Flags.loadLinks = false := by
  intro l' e
  unfold keptLink at e
  split at e
  · next hr =>
    obtain ⟨h1, lk, rfl, -⟩ := hl hr
    simp only [Option.map_some, Option.some.injEq] at e
    subst e
    exact ⟨rfl, hr, h1⟩
  · simp at e

variable {σ ι : Type} {B : Builder σ ι} {Ok : σ → List (ι × Shape) → Prop}

/-- entries standing for shapes: raw rows of leaves and built items -/
inductive Ents (N : Names) (E : Env) (d : Nat) : List (Entry ι) → List Shape → List (ι × Shape) → Prop
  | nil : Ents N E d [] [] []
  | raw {k : Shape} {r : List J} {es ks L} : RowOf N E d k (.arr r) → k.kids = [] → Ents N E d es ks L → Ents N E d (.raw r :: es) (k :: ks) L
  | item {k : Shape} {i : ι} {es ks L} : Ents N E d es ks L → Ents N E d (.item i :: es) (k :: ks) ((i, k.restored) :: L)

theorem loadedL_eq (l : List Shape) : Shape.loadedL l = l.map Shape.loaded := by
  induction l with
  | nil => rfl
  | cons k ks ih => simp [Shape.loadedL, ih]

theorem restoredL_eq (l : List Shape) : Shape.restoredL l = l.map Shape.restored := by
  induction l with
  | nil => rfl
  | cons k ks ih => simp [Shape.restoredL, ih]

theorem supportedL_iff (N : Names) (E : Env) (l : List Shape) : Shape.supportedL N E l ↔ ∀ k ∈ l, k.supported N E := by
  induction l with
  | nil => simp [Shape.supportedL]
  | cons k ks ih => simp [Shape.supportedL, ih]

theorem Ents.append {d : Nat} {es es' : List (Entry ι)} {ks ks' L L'} (h : Ents N E d es ks L) (h' : Ents N E d es' ks' L') : Ents N E d (es ++ es') (ks ++ ks') (L ++ L') := by
  induction h with
  | nil => exact h'
  | raw a b _ ih => exact .raw a b ih
  | item _ ih => exact .item ih

theorem makeKids_spec (law : Law B Ok) {d : Nat} {es : List (Entry ι)} {ks : List Shape} {L : List (ι × Shape)} (he : Ents N E d es ks L) :
    ∀ {s : σ} {M : List (ι × Shape)}, (∀ k ∈ ks, k.supported N E) → Ok s (L ++ M) →
      ∃ s' L', makeKids B N E s es = (s', .ok (L'.map Prod.fst)) ∧ L'.map Prod.snd = ks.map Shape.restored ∧ Ok s' (L' ++ M) := by
  induction he with
  | nil => intro s M _ h; exact ⟨s, [], rfl, rfl, h⟩
  | @raw k r es ks L hr hk _ ih =>
    intro s M hs h
    obtain ⟨t, v, f, l, kk⟩ := k
    simp only [Shape.kids] at hk; subst hk
    obtain ⟨fidx, js, e1, e2⟩ := hr
    have hs0 := hs (.node t v f l []) (by simp)
    simp only [Shape.supported] at hs0
    have ha := (args_back hs0.1 hs0.2.1 hs0.2.2.1 e2 (.int d) (.int fidx)).1
    have e1' : r = .int d :: .int fidx :: js := by simpa using e1
    have hn := law.new (M := []) t v f (keptLink f l) (kept_fits hs0.2.2.1) (by simpa using h)
    simp only [List.map_nil] at hn
    obtain ⟨s', L', h1, h2, h3⟩ := ih (M := ((B.new s t v [] f (keptLink f l)).2, .node t v f (keptLink f l) []) :: M) (fun k hk => hs k (by simp [hk])) (law.perm hn (by simpa using List.perm_middle.symm))
    refine ⟨s', ((B.new s t v [] f (keptLink f l)).2, .node t v f (keptLink f l) []) :: L', ?_, ?_, law.perm h3 (by simpa using List.perm_middle)⟩
    · simp only [makeKids, e1', ha, h1, List.map_cons]
    · simp [h2, Shape.restored, Shape.restoredL, Shape.orL, keptLink]
  | @item k i es ks L _ ih =>
    intro s M hs h
    obtain ⟨s', L', h1, h2, h3⟩ := ih (M := (i, k.restored) :: M) (fun k hk => hs k (by simp [hk])) (law.perm h (by simpa using List.perm_middle.symm))
    refine ⟨s', (i, k.restored) :: L', ?_, ?_, law.perm h3 (by simpa using List.perm_middle)⟩
    · simp only [makeKids, h1, List.map_cons]
    · simp [h2]

theorem popLevel_spec (law : Law B Ok) {d : Nat} {k : Shape} {row : List J} {top more : List (Entry ι)} {rest : List (List (Entry ι))} {L M : List (ι × Shape)} {s : σ} {o : Option ι}
    (hr : RowOf N E d k (.arr row)) (hs : k.supported N E) (he : Ents N E (d + 1) top.reverse k.kids L) (h : Ok s (L ++ M)) :
    ∃ s' i, popLevel B N E ⟨s, top :: (.raw row :: more) :: rest, o⟩ = (s', .ok ⟨s', (.item i :: more) :: rest, some i⟩) ∧ Ok s' ((i, k.restored) :: M) := by
  obtain ⟨t, v, f, l, kk⟩ := k
  obtain ⟨fidx, js, e1, e2⟩ := hr
  have e1' : row = .int d :: .int fidx :: js := by simpa using e1
  simp only [Shape.supported] at hs
  have ha := (args_back hs.1 hs.2.1 hs.2.2.1 e2 (.int d) (.int fidx)).2.1
  obtain ⟨s', L', h1, h2, h3⟩ := makeKids_spec law he ((supportedL_iff N E kk).1 hs.2.2.2) h
  have hn := law.new t v f (keptLink f l) (kept_fits hs.2.2.1) h3
  refine ⟨_, _, by simp only [popLevel, e1', ha, h1]; rfl, ?_⟩
  have : (L'.map fun p => p.2.or (f &&& Flags.deepMask)) = Shape.orL (f &&& Flags.deepMask) (Shape.restoredL kk) := by
    rw [orL_eq, restoredL_eq]
    simp only [Shape.kids] at h2
    rw [← h2, List.map_map]; rfl
  rw [this] at hn
  exact hn

theorem popN_add (a b : Nat) : ∀ (x y : LoadSt σ ι), popN B N E a x = (y.s, .ok y) → popN B N E (a + b) x = popN B N E b y := by
  induction a with
  | zero => intro x y h; simp only [popN, Prod.mk.injEq, Except.ok.injEq] at h; rw [Nat.zero_add, h.2]
  | succ a ih =>
    intro x y h
    rw [show a + 1 + b = (a + b) + 1 by omega]
    simp only [popN] at h ⊢
    split at h
    · next s x' he => exact ih _ _ h
    · simp at h

/-- popping down to the level `d` leads to `y` -/
def Settle (B : Builder σ ι) (N : Names) (E : Env) (d : Nat) (x y : LoadSt σ ι) : Prop := d + 1 ≤ x.levels.length ∧ popN B N E (x.levels.length - 1 - d) x = (y.s, .ok y)

/-- loading a row of depth `d` puts it on the level `acc` -/
def Ready (B : Builder σ ι) (N : Names) (E : Env) (d : Nat) (x y : LoadSt σ ι) (acc : List (Entry ι)) (below : List (List (Entry ι))) : Prop :=
  y.levels = acc :: below ∧ below.length = d ∧ ∀ (r : List J), loadRow B N E x (.arr (.int d :: r)) = (y.s, .ok { y with levels := (.raw (.int d :: r) :: acc) :: below })

theorem Settle.ready {d : Nat} {x y : LoadSt σ ι} {acc : List (Entry ι)} {below : List (List (Entry ι))} (h : Settle B N E d x y) (hy : y.levels = acc :: below) (hb : below.length = d) :
    Ready B N E d x y acc below := by
  refine ⟨hy, hb, fun r => ?_⟩
  obtain ⟨h1, h2⟩ := h
  simp only [loadRow]
  cases hx : x.levels with
  | nil => rw [hx] at h1; simp at h1
  | cons top rest =>
    rw [hx] at h1 h2
    simp only [List.length_cons, Nat.add_sub_cancel] at h1 h2 ⊢
    by_cases e : d = rest.length
    · rw [e, Nat.sub_self] at h2
      simp only [popN, Prod.mk.injEq, Except.ok.injEq] at h2
      have hxy := h2.2
      subst hxy
      rw [hy] at hx
      simp only [List.cons.injEq] at hx
      rw [if_pos (by rw [e])]
      simp [hx.1, hx.2]
    · rw [if_neg (by omega), if_neg (by omega), if_pos (by omega)]
      have : ((rest.length : Int) - (d : Int)).toNat = rest.length - d := by omega
      rw [this, h2]
      simp only [hy]

/-- starting a new level -/
theorem ready_new {d : Nat} {x : LoadSt σ ι} {top : List (Entry ι)} {rest : List (List (Entry ι))} (hx : x.levels = top :: rest) (hd : rest.length = d) :
    Ready B N E (d + 1) x { x with levels := [] :: top :: rest } [] (top :: rest) := by
  refine ⟨rfl, by simp [hd], fun r => ?_⟩
  simp only [loadRow, hx]
  rw [if_neg (by omega), if_pos (by omega)]

theorem loadRows_append (rs rs' : List J) : ∀ (x x' : LoadSt σ ι), loadRows B N E x rs = (x'.s, .ok x') → loadRows B N E x (rs ++ rs') = loadRows B N E x' rs' := by
  induction rs with
  | nil => intro x x' h; simp only [loadRows, Prod.mk.injEq, Except.ok.injEq] at h; rw [List.nil_append, h.2]
  | cons r rs ih =>
    intro x x' h
    simp only [loadRows, List.cons_append] at h ⊢
    split at h
    · exact ih _ _ h
    · simp at h

theorem loadRows_spec (law : Law B Ok) {d : Nat} {ks : List Shape} {rows : List J} (hr : RowsOf N E d ks rows) : ks ≠ [] → (∀ k ∈ ks, k.supported N E) →
    ∀ {x y : LoadSt σ ι} {acc : List (Entry ι)} {below : List (List (Entry ι))} {L : List (ι × Shape)}, Ready B N E d x y acc below → Ok y.s L →
      ∃ x' y' es L', loadRows B N E x rows = (x'.s, .ok x') ∧ Settle B N E d x' y' ∧ y'.levels = (es.reverse ++ acc) :: below ∧ Ents N E d es ks L' ∧ Ok y'.s (L' ++ L) := by
  induction hr with
  | nil d => intro h; exact absurd rfl h
  | @cons d k ks r rs1 rs2 hrow hr1 hr2 ih1 ih2 =>
    intro _ hs x y acc below L hready hok
    obtain ⟨hy, hb, hload⟩ := hready
    have hsk := hs k (by simp)
    obtain ⟨r', hr'⟩ : ∃ r', r = .arr (.int d :: r') := by
      obtain ⟨t, v, f, l, kk⟩ := k
      obtain ⟨fidx, js, e1, -⟩ := hrow
      exact ⟨_, e1⟩
    subst hr'
    -- the state after the tree `k`
    have first : ∃ x1 y1 e L1, loadRows B N E x (.arr (.int d :: r') :: rs1) = (x1.s, .ok x1) ∧ Settle B N E d x1 y1 ∧ y1.levels = (e :: acc) :: below ∧ Ents N E d [e] [k] L1 ∧ Ok y1.s (L1 ++ L) := by
      by_cases hk : k.kids = []
      · rw [hk] at hr1
        cases hr1
        refine ⟨{ y with levels := (.raw (.int d :: r') :: acc) :: below }, { y with levels := (.raw (.int d :: r') :: acc) :: below }, .raw (.int d :: r'), [], ?_, ?_, rfl, .raw hrow hk .nil, hok⟩
        · simp only [loadRows, hload r']
        · refine ⟨by simp [hb], ?_⟩
          simp [hb, popN]
      · have hsup : ∀ k' ∈ k.kids, k'.supported N E := by
          obtain ⟨t, v, f, l, kk⟩ := k
          simp only [Shape.supported] at hsk
          exact (supportedL_iff N E kk).1 hsk.2.2.2
        obtain ⟨x2, y2, es, L', h1, h2, h3, h4, h5⟩ := ih1 hk hsup (ready_new (x := { y with levels := (.raw (.int d :: r') :: acc) :: below }) rfl hb) (L := L) hok
        obtain ⟨s', i, hp, hok'⟩ := popLevel_spec law (top := es.reverse) (more := acc) (rest := below) (o := y2.it) hrow hsk (by simpa using h4) h5
        refine ⟨x2, ⟨s', (.item i :: acc) :: below, some i⟩, .item i, [(i, k.restored)], ?_, ?_, rfl, .item .nil, hok'⟩
        · simp only [loadRows, hload r']; exact h1
        · obtain ⟨h21, h22⟩ := h2
          refine ⟨by omega, ?_⟩
          have hl : x2.levels.length - 1 - d = (x2.levels.length - 1 - (d + 1)) + 1 := by omega
          rw [hl, popN_add _ _ _ _ h22]
          have hy2 : y2 = ⟨y2.s, es.reverse :: (.raw (.int d :: r') :: acc) :: below, y2.it⟩ := by
            simp only [List.append_nil] at h3
            rw [← h3]
          rw [hy2]
          simp only [popN, hp]
    obtain ⟨x1, y1, e, L1, f1, f2, f3, f4, f5⟩ := first
    by_cases hks : ks = []
    · subst hks
      cases hr2
      refine ⟨x1, y1, [e], L1, by simpa using f1, f2, by simpa using f3, f4, f5⟩
    · obtain ⟨x', y', es, L', g1, g2, g3, g4, g5⟩ := ih2 hks (fun k' hk' => hs k' (by simp [hk'])) (f2.ready f3 hb) f5
      refine ⟨x', y', e :: es, L1 ++ L', ?_, g2, by simpa using g3, f4.append g4, law.perm g5 ?_⟩
      · rw [← List.cons_append, loadRows_append _ _ _ _ f1]; exact g1
      · rw [← List.append_assoc]; exact List.Perm.append_right _ List.perm_append_comm

/-- `create_itree_from_raw` on the rows of a tree whose root has children -/
theorem fromRaw_spec (law : Law B Ok) {T : Shape} {rows : List J} (hr : RowsOf N E 0 [T] rows) (hk : T.kids ≠ []) (hs : T.supported N E) {s : σ} (h : Ok s []) :
    ∃ s' i, fromRaw B N E s rows = (s', .ok i) ∧ Ok s' [(i, T.restored)] := by
  cases hr with
  | @cons _ _ _ r rs1 rs2 hrow hr1 hr2 =>
    cases hr2
    obtain ⟨r', hr'⟩ : ∃ r', r = .arr (.int (0 : Nat) :: r') := by
      obtain ⟨t, v, f, l, kk⟩ := T
      obtain ⟨fidx, js, e1, -⟩ := hrow
      exact ⟨_, e1⟩
    subst hr'
    have hsup : ∀ k' ∈ T.kids, k'.supported N E := by
      obtain ⟨t, v, f, l, kk⟩ := T
      simp only [Shape.supported] at hs
      exact (supportedL_iff N E kk).1 hs.2.2.2
    have first : loadRow B N E { s := s, levels := [[]], it := none } (.arr (.int (0 : Nat) :: r')) = (s, .ok { s := s, levels := [[.raw (.int (0 : Nat) :: r')]], it := none }) := by
      simp [loadRow]
    obtain ⟨x2, y2, es, L', h1, ⟨h21, h22⟩, h3, h4, h5⟩ := loadRows_spec law hr1 hk hsup (ready_new (x := { s := s, levels := [[.raw (.int (0 : Nat) :: r')]], it := none }) rfl rfl) (L := []) h
    obtain ⟨s', i, hp, hok'⟩ := popLevel_spec law (top := es.reverse) (more := []) (rest := []) (o := y2.it) hrow hs (by simpa using h4) h5
    refine ⟨s', i, ?_, hok'⟩
    have hl : x2.levels.length - 1 = (x2.levels.length - 1 - (0 + 1)) + 1 := by omega
    have hy2 : y2 = ⟨y2.s, es.reverse :: (.raw (.int (0 : Nat) :: r') :: []) :: [], y2.it⟩ := by
      simp only [List.append_nil] at h3
      rw [← h3]
    unfold fromRaw
    simp only [List.append_nil, loadRows, first, h1]
    rw [hl, popN_add _ _ _ _ h22, hy2]
    simp only [popN, hp]

end

end ITree
