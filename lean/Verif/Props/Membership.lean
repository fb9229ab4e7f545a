import Verif.Proofs.Query
import Verif.Props.Equal
import Verif.Props.Lookup
import Verif.Props.Deep
/-
C45: membership queries.
-/
namespace ITree

variable {ms : ModelSet} {h : Heap}

/-! ### identity -/

/-- C45. `t.is_in(x)` holds exactly for the children of `t` (states reached without `sort` and `clear`) -/
theorem C45_is_in_partial (H : Tidy ms h) (p x : Id) : isIn h p x = true ↔ x ∈ h.kids p := by
  obtain ⟨C, Z⟩ := H.inv
  simp only [isIn, beq_iff_eq]
  exact ⟨Z x p, fun hx => par_child C.wf hx⟩

/-- after `sort` the former children of `t` still claim to be in `t` -/
theorem C45_is_in_after_sort : ∃ (h : Heap) (p x : Id), Reach ms0 h ∧ isIn h p x = true ∧ x ∉ h.kids p := by
  have T : Tidy ms0 (run ms0 Heap.empty [.new (.other 0) .noValue [] 0#6, .new (.other 1) .noValue [] 0#6, .append 0 (.item 1)]) := tidy_run _ .empty (by decide +kernel)
  exact ⟨_, 0, 1, T.reach.step (.sort 0 (fun _ => 0) false) (by decide +kernel : (0 : Nat) < _), by decide +kernel, by decide +kernel⟩

/-- C45. `t.is_tag_in(tag)` holds exactly when some child carries the tag -/
theorem C45_is_tag_in (H : Reach ms h) (p : Id) (t : Tag) : isTagIn h p t = true ↔ ∃ c ∈ h.kids p, h.tag c = t := by
  unfold isTagIn
  by_cases hk : h.kids p = []
  · simp [hk]
  · obtain ⟨F, hF, O⟩ := H.core.wf.fams_ok p hk
    rw [if_neg hk, hF, Option.getD_some, O.get]
    by_cases hv : famView h p t = []
    · simp only [hv, if_true, Option.isSome_none, Bool.false_eq_true, false_iff]
      rintro ⟨c, hc, ht⟩
      have : c ∈ famView h p t := mem_famView.2 ⟨hc, ht⟩
      rw [hv] at this; simp at this
    · simp only [hv, if_false, Option.isSome_some, true_iff]
      obtain ⟨c, hc⟩ := List.exists_mem_of_ne_nil _ hv
      exact ⟨c, mem_famView.1 hc⟩

theorem isInAux_spec {x : Id} (C : Core h) (Z : NoZombie h) : ∀ (k : Nat) (y r : Id), ancestor h k y = some r → h.par r = none →
    ∀ n, k < n → ∃ b, isInAux n h x y = some b ∧ (b = true ↔ Below h x y ∧ y ≠ x) := by
  intro k
  induction k with
  | zero =>
    intro y r e1 e2 n hn
    obtain ⟨n, rfl⟩ : ∃ m, n = m + 1 := ⟨n - 1, by omega⟩
    simp only [ancestor, Option.some.injEq] at e1; subst e1
    refine ⟨false, by simp [isInAux, e2], by simp, ?_⟩
    rintro ⟨b, hne⟩
    cases b with
    | refl => exact absurd rfl hne
    | step _ hc => rw [par_child C.wf hc] at e2; cases e2
  | succ k ih =>
    intro y r e1 e2 n hn
    obtain ⟨n, rfl⟩ : ∃ m, n = m + 1 := ⟨n - 1, by omega⟩
    simp only [ancestor] at e1
    cases hp : h.par y with
    | none => rw [hp] at e1; cases e1
    | some p =>
      rw [hp] at e1
      have hc := Z y p hp
      have hk : h.kids p ≠ [] := List.ne_nil_of_mem hc
      have up : ∀ q, y ∈ h.kids q → q = p := fun q hq => by
        have := par_child C.wf hq; rw [hp] at this; exact (Option.some.inj this).symm
      have hb : (Below h x y ∧ y ≠ x) ↔ Below h x p := by
        constructor
        · rintro ⟨b, hne⟩
          cases b with
          | refl => exact absurd rfl hne
          | step b' hc' => rwa [up _ hc'] at b'
        · intro b
          refine ⟨.step b hc, fun e => ?_⟩
          subst e
          exact C.forest.irrefl hc b
      by_cases hpx : p = x
      · subst hpx
        exact ⟨true, by simp [isInAux, hp, hk], by rw [hb]; simp [Below.refl]⟩
      · obtain ⟨b, h1, h2⟩ := ih p r e1 e2 n (by omega)
        refine ⟨b, by simp [isInAux, hp, hk, hpx, h1], ?_⟩
        rw [h2, hb]
        simp [hpx]

/-- C45. `t.deep.is_in(x)` ends and holds exactly for the items below `t` – children, grandchildren, … (states reached without `sort` and `clear`) -/
theorem C45_deep_is_in_partial (H : Tidy ms h) (p x : Id) : ∃ b, Delivers (fun n => deepIsIn n h p x) b ∧ (b = true ↔ Below h p x ∧ x ≠ p) := by
  obtain ⟨C, Z⟩ := H.inv
  obtain ⟨k, r, e1, e2, _⟩ := climb C Z x
  obtain ⟨b, _, h2⟩ := isInAux_spec C Z k x r e1 e2 (k + 1) (by omega)
  refine ⟨b, ⟨k + 1, fun n hn => ?_⟩, h2⟩
  obtain ⟨b', h1', h2'⟩ := isInAux_spec (x := p) C Z k x r e1 e2 n (by omega)
  have : b' = b := by rw [Bool.eq_iff_iff, h2', h2]
  rw [← this]; exact h1'

/-! ### by comparison -/

/-- C45. `x in t` for an item: some child equals `x`; in particular every child is in `t` and, with proper values, so is every copy of a child -/
theorem C45_contains_item (h : Heap) (p x : Id) :
    (containsItem h p x = true ↔ ∃ c ∈ h.kids p, h.eqItem c x = true) ∧ (x ∈ h.kids p → containsItem h p x = true) := by
  simp only [containsItem, List.any_eq_true, true_and]
  exact fun hx => ⟨x, hx, C32_refl h x⟩

/-- C45. `(tag, i) in t` holds exactly when `i` is a valid position among the children with the tag -/
theorem C45_contains_key (H : Reach ms h) (p : Id) (t : Tag) (i : Int) :
    containsTarget h p (.key t (.int i)) = true ↔ -((withTag h p t).length : Int) ≤ i ∧ i < (withTag h p t).length := by
  by_cases hi : -((withTag h p t).length : Int) ≤ i ∧ i < (withTag h p t).length
  · simp only [hi, and_self, iff_true]
    by_cases h0 : 0 ≤ i
    · have := C20_key H p t i i.toNat (by omega) (.inl (by omega))
      simp only [containsTarget, this]
    · have := C20_key H p t i (i + (withTag h p t).length).toNat (by omega) (.inr (by omega))
      simp only [containsTarget, this]
  · refine ⟨fun e => ?_, fun e => absurd e hi⟩
    exfalso
    by_cases hk : h.kids p = []
    · simp [containsTarget, getItem, hk] at e
    · have hm := C20_key_miss H p t i hk (by omega)
      simp only [containsTarget, hm] at e
      by_cases hv : withTag h p (.pair t (.int i)) = [] <;> simp [hv] at e

/-- C45. `i in t` holds exactly when `i` is a valid index -/
theorem C45_contains_index (H : Reach ms h) (p : Id) (i : Int) :
    containsTarget h p (.int i) = true ↔ -((h.kids p).length : Int) ≤ i ∧ i < (h.kids p).length := by
  by_cases hi : -((h.kids p).length : Int) ≤ i ∧ i < (h.kids p).length
  · simp only [hi, and_self, iff_true]
    by_cases h0 : 0 ≤ i
    · simp only [containsTarget, C20_index h p i i.toNat (by omega) (.inl (by omega))]
    · simp only [containsTarget, C20_index h p i (i + (h.kids p).length).toNat (by omega) (.inr (by omega))]
  · refine ⟨fun e => ?_, fun e => absurd e hi⟩
    exfalso
    have hm := C20_index_miss H p i (by omega)
    simp only [containsTarget, hm] at e
    by_cases hk : h.kids p = [] <;> by_cases hv : withTag h p (.int i) = [] <;> simp [hk, hv] at e

/-- C45 (defect). `tag in t` is False for every tag, even if children carry it (`next` is applied to the list of these children) -/
theorem C45_contains_tag_never (h : Heap) (p : Id) (t : Tag) : containsTarget h p (.tag t) = false := by
  simp only [containsTarget, getItem, getItem1]
  by_cases hk : h.kids p = []
  · simp [hk]
  · rw [if_neg hk]
    cases ((h.boundFams p).getD []).get? t <;> rfl

theorem C45_contains_tag_witness : containsTarget demo 0 (.tag (.other 1)) = false ∧ isTagIn demo 0 (.other 1) = true := by decide +kernel

/-- C45. `t.count(x)`: the number of children equal to `x`; `x` is a child only if it is positive -/
theorem C45_count (h : Heap) (p x : Id) : countEq h p x = (h.kids p).countP (fun c => h.eqItem x c) ∧ (x ∈ h.kids p → 0 < countEq h p x) := by
  constructor
  · rw [countEq, List.countP_eq_length_filter]
  · intro hx
    rw [countEq]
    exact List.length_pos_of_mem (List.mem_filter.2 ⟨hx, C32_refl h x⟩)

/-! ### position search -/

/-- the first `n ≥ s` with `q l[n]`, searched before position `e` -/
def FirstAt (q : Id → Bool) (l : List Id) (s e n : Nat) : Prop :=
  s ≤ n ∧ n < e ∧ (∃ y, l[n]? = some y ∧ q y = true) ∧ ∀ (m : Nat) (y : Id), s ≤ m → m < n → l[m]? = some y → q y = false

theorem dropTo_spec {q : Id → Bool} : ∀ (l : List Id),
    (dropTo q l = none ∧ ∀ y ∈ l, q y = false) ∨
    ∃ (n : Nat) (y : Id), dropTo q l = some (y, l.drop (n + 1)) ∧ l[n]? = some y ∧ q y = true ∧ ∀ (m : Nat) (z : Id), m < n → l[m]? = some z → q z = false := by
  intro l
  induction l with
  | nil => left; simp [dropTo]
  | cons x xs ih =>
    cases hx : q x with
    | true => right; exact ⟨0, x, by simp [dropTo, hx], rfl, hx, fun m z hm => by omega⟩
    | false =>
      rcases ih with ⟨h1, h2⟩ | ⟨n, y, h1, h2, h3, h4⟩
      · left; exact ⟨by simp [dropTo, hx, h1], by simpa [hx] using h2⟩
      · right
        refine ⟨n + 1, y, by simp [dropTo, hx, h1], by simpa using h2, h3, fun m z hm hz => ?_⟩
        cases m with
        | zero => simp at hz; subst hz; exact hx
        | succ m => exact h4 m z (by omega) (by simpa using hz)

/-- positions of an optional bound: the position of the given item, or the end of the list -/
def limitPos (l : List Id) : Option Id → Nat
  | some s => l.idxOf s
  | none => l.length
def startPos (l : List Id) : Option Id → Nat
  | some s => l.idxOf s
  | none => 0

theorem rest_spec (eq : Id → Id → Bool) {l : List Id} (hn : l.Nodup) (x : Id) {stop : Option Id} (hstop : ∀ s, stop = some s → s ∈ l) :
    (∃ n y, findRest eq x stop l = .ok y ∧ l[n]? = some y ∧ FirstAt (fun c => eq c x) l 0 (limitPos l stop) n) ∨
    (findRest eq x stop l = .error .index ∧ ∀ n, ¬ FirstAt (fun c => eq c x) l 0 (limitPos l stop) n) := by
  cases stop with
  | none =>
    rcases dropTo_spec (q := fun i => eq i x) l with ⟨h1, h2⟩ | ⟨n, y, h1, h2, h3, h4⟩
    · right
      simp only [findRest, h1, true_and]
      rintro n ⟨_, _, ⟨y, hy, hq⟩, _⟩
      have hq : eq y x = true := hq
      rw [h2 y (List.mem_of_getElem? hy)] at hq; cases hq
    · left
      simp only [findRest, h1]
      exact ⟨n, y, rfl, h2, Nat.zero_le _, (List.getElem?_eq_some_iff.1 h2).1, ⟨y, h2, h3⟩, fun m z _ hm hz => h4 m z hm hz⟩
  | some s =>
    obtain ⟨k, hk, hks⟩ := List.getElem_of_mem (hstop s rfl)
    have hp : l.idxOf s = k := pos_unique hn (by rw [List.getElem?_eq_getElem hk, hks])
    simp only [limitPos, hp]
    rcases dropTo_spec (q := fun i => i == s || eq i x) l with ⟨h1, h2⟩ | ⟨n, y, h1, h2, h3, h4⟩
    · exfalso
      have := h2 s (hstop s rfl)
      simp at this
    · simp only [findRest, h1]
      by_cases hy : y = s
      · right
        subst hy
        have hnk : n = k := by rw [← hp]; exact (pos_unique hn h2).symm
        simp only [if_true, true_and]
        rintro m ⟨_, hm, ⟨z, hz, hq⟩, _⟩
        have hq : eq z x = true := hq
        have := h4 m z (by omega) hz
        simp [hq] at this
      · left
        simp only [hy, if_false]
        have hyq : eq y x = true := by simpa [hy] using h3
        have hnk : n < k := by
          by_contra hc
          rcases Nat.lt_or_ge k n with hlt | hge
          · have := h4 k s hlt (by rw [List.getElem?_eq_getElem hk, hks])
            simp at this
          · have : n = k := by omega
            subst this
            rw [List.getElem?_eq_getElem hk, hks] at h2
            exact hy (Option.some.inj h2).symm
        exact ⟨n, y, rfl, h2, Nat.zero_le _, hnk, ⟨y, h2, hyq⟩, fun m z _ hm hz => by
          have := h4 m z hm hz
          simp only [Bool.or_eq_false_iff] at this
          exact this.2⟩

/-- The search of `index` and `deep.index` over a duplicate-free list: the first equal item at or after `start` and before `stop`, otherwise IndexError.  `stop` must lie behind
`start` (otherwise the code never meets it and searches to the end). -/
theorem findItem_spec (eq : Id → Id → Bool) {l : List Id} (hn : l.Nodup) (x : Id) {start stop : Option Id} (hstart : ∀ s, start = some s → s ∈ l)
    (hstop : ∀ s, stop = some s → s ∈ l) (ho : ∀ s e, start = some s → stop = some e → l.idxOf s < l.idxOf e) :
    (∃ n y, findItem eq l x start stop = .ok y ∧ l[n]? = some y ∧ FirstAt (fun c => eq c x) l (startPos l start) (limitPos l stop) n) ∨
    (findItem eq l x start stop = .error .index ∧ ∀ n, ¬ FirstAt (fun c => eq c x) l (startPos l start) (limitPos l stop) n) := by
  cases start with
  | none => exact rest_spec eq hn x hstop
  | some s =>
    obtain ⟨k, hk, hks⟩ := List.getElem_of_mem (hstart s rfl)
    have hks' : l[k]? = some s := by rw [List.getElem?_eq_getElem hk, hks]
    have hp : l.idxOf s = k := pos_unique hn hks'
    rcases dropTo_spec (q := fun i => i == s) l with ⟨h1, h2⟩ | ⟨n, y, h1, h2, h3, _⟩
    · have := h2 s (hstart s rfl); simp at this
    · have hy : y = s := by simpa using h3
      subst hy
      have hnk : n = k := by rw [← hp]; exact (pos_unique hn h2).symm
      subst hnk
      simp only [startPos, hp]
      have hlim : n < limitPos l stop := by
        cases stop with
        | none => exact hk
        | some e => have := ho y e rfl rfl; rw [hp] at this; exact this
      cases hq : eq y x with
      | true =>
        left
        refine ⟨n, y, by simp [findItem, h1, hq], h2, Nat.le_refl _, hlim, ⟨y, h2, hq⟩, fun m z h5 h6 => by omega⟩
      | false =>
        have hstop' : ∀ e, stop = some e → e ∈ l.drop (n + 1) := by
          intro e he
          obtain ⟨j, hj, hje⟩ := List.getElem_of_mem (hstop e he)
          have hpe : l.idxOf e = j := pos_unique hn (by rw [List.getElem?_eq_getElem hj, hje])
          have := ho y e rfl he
          rw [hp, hpe] at this
          refine List.mem_of_getElem? (i := j - (n + 1)) ?_
          rw [List.getElem?_drop, show n + 1 + (j - (n + 1)) = j by omega, List.getElem?_eq_getElem hj, hje]
        have hl : limitPos l stop = n + 1 + limitPos (l.drop (n + 1)) stop := by
          cases stop with
          | none => simp only [limitPos, List.length_drop]; omega
          | some e =>
            simp only [limitPos]
            obtain ⟨j, hj, hje⟩ := List.getElem_of_mem (hstop' e rfl)
            have e1 : (l.drop (n + 1))[j]? = some e := by rw [List.getElem?_eq_getElem hj, hje]
            rw [pos_unique (hn.sublist (List.drop_sublist _ _)) e1]
            rw [List.getElem?_drop] at e1
            exact pos_unique hn e1
        have hF : ∀ m, FirstAt (fun c => eq c x) (l.drop (n + 1)) 0 (limitPos (l.drop (n + 1)) stop) m ↔ FirstAt (fun c => eq c x) l n (limitPos l stop) (n + 1 + m) := by
          intro m
          simp only [FirstAt, List.getElem?_drop, hl]
          constructor
          · rintro ⟨_, a, b, c⟩
            refine ⟨by omega, by omega, b, fun j z h5 h6 hz => ?_⟩
            by_cases hj : j = n
            · subst hj; rw [h2] at hz; cases hz; exact hq
            · exact c (j - (n + 1)) z (by omega) (by omega) (by rw [show n + 1 + (j - (n + 1)) = j by omega]; exact hz)
          · rintro ⟨_, a, b, c⟩
            exact ⟨by omega, by omega, b, fun j z h5 h6 hz => c (n + 1 + j) z (by omega) (by omega) hz⟩
        have hfi : findItem eq l x (some y) stop = findRest eq x stop (l.drop (n + 1)) := by
          simp only [findItem, h1, hq, Bool.false_eq_true, if_false]
        rw [hfi]
        rcases rest_spec eq (hn.sublist (List.drop_sublist (n + 1) l)) x hstop' with ⟨m, z, a, b, c⟩ | ⟨a, b⟩
        · left
          exact ⟨n + 1 + m, z, a, by rw [← List.getElem?_drop]; exact b, (hF m).1 c⟩
        · right
          refine ⟨a, fun m hm => ?_⟩
          have hne : m ≠ n := by
            rintro rfl
            obtain ⟨_, _, ⟨z, hz, hzq⟩, _⟩ := hm
            have hzq : eq z x = true := hzq
            rw [h2] at hz; cases hz; rw [hq] at hzq; cases hzq
          have : m = n + 1 + (m - (n + 1)) := by have := hm.1; omega
          rw [this] at hm
          exact b _ ((hF _).2 hm)

/-- C45. `t.index(x, start, stop)` for a `t` with children: the position of the first child equal to `x` at or after the child `start` and before the child `stop`; IndexError when there
is none.  Nothing observable changes. -/
theorem C45_index (H : Reach ms h) {p : Id} (hk : h.kids p ≠ []) (x : Id) {start stop : Option Id} (hstart : ∀ s, start = some s → s ∈ h.kids p)
    (hstop : ∀ s, stop = some s → s ∈ h.kids p) (ho : ∀ s e, start = some s → stop = some e → (h.kids p).idxOf s < (h.kids p).idxOf e) :
    (∃ (n : Nat) (h' : Heap), indexOf h p x start stop = (h', .ok (some (n : Int))) ∧
      FirstAt (fun c => h.eqItem c x) (h.kids p) (startPos (h.kids p) start) (limitPos (h.kids p) stop) n ∧ Unchanged h h') ∨
    (indexOf h p x start stop = (h, .error .index) ∧ ∀ n, ¬ FirstAt (fun c => h.eqItem c x) (h.kids p) (startPos (h.kids p) start) (limitPos (h.kids p) stop) n) := by
  have W := H.core.wf
  rcases findItem_spec h.eqItem (W.kids_nodup p) x hstart hstop ho with ⟨n, y, e, hy, hF⟩ | ⟨e, hF⟩
  · left
    obtain ⟨m, e1, e2⟩ := idx_child W (List.mem_of_getElem? hy)
    have : m = n := by rw [← pos_unique (W.kids_nodup p) hy, pos_unique (W.kids_nodup p) e2]
    subst this
    refine ⟨m, (h.idx y).1, ?_, hF, (idx_ceq h y).unchanged⟩
    simp only [indexOf, if_neg hk, e]
    rw [← e1]
  · right
    exact ⟨by simp only [indexOf, if_neg hk, e], hF⟩

/-- C45 (defect). an item without children delivers None instead of IndexError -/
theorem C45_index_empty (h : Heap) {p : Id} (hk : h.kids p = []) (x : Id) (start stop : Option Id) : indexOf h p x start stop = (h, .ok none) := by
  simp [indexOf, hk]

/-! ### in-depth queries -/

/-- C45. `x in t.deep` ends and holds exactly when some item below `t` equals `x` -/
theorem C45_deep_contains (H : Reach ms h) (p x : Id) : ∃ b, Delivers (fun n => deepContains n h p x) b ∧ (b = true ↔ ∃ y, Below h p y ∧ y ≠ p ∧ h.eqItem y x = true) := by
  obtain ⟨l, ⟨N, hN⟩, _, hm⟩ := C26_each_once H p
  refine ⟨l.any fun c => h.eqItem c x, ⟨N, fun n hn => by simp only [deepContains, hN n hn, Option.map_some]⟩, ?_⟩
  simp only [List.any_eq_true, hm]
  exact ⟨fun ⟨y, a, b⟩ => ⟨y, a.1, a.2, b⟩, fun ⟨y, a, b, c⟩ => ⟨y, ⟨a, b⟩, c⟩⟩

/-- C45. `t.deep.count(x)` ends and is the number of the items below `t` equal to `x` -/
theorem C45_deep_count (H : Reach ms h) (p x : Id) : ∃ L : List Id, Delivers (fun n => deepCount n h p x) L.length ∧ L.Nodup ∧ ∀ y, y ∈ L ↔ Below h p y ∧ y ≠ p ∧ h.eqItem x y = true := by
  obtain ⟨l, ⟨N, hN⟩, hd, hm⟩ := C26_each_once H p
  refine ⟨l.filter fun c => h.eqItem x c, ⟨N, fun n hn => by simp only [deepCount, hN n hn, Option.map_some]⟩, hd.filter _, fun y => ?_⟩
  rw [List.mem_filter, hm, and_assoc]

/-- C45. `t.deep.is_tag_in(tag)` ends and holds exactly when an item below a CHILD of `t` carries the tag: the children themselves are not looked at -/
theorem C45_deep_is_tag_in_partial (H : Reach ms h) (p : Id) (t : Tag) :
    ∃ b, Delivers (fun n => deepIsTagIn n h p t) b ∧ (b = true ↔ ∃ y z, Below h p y ∧ y ≠ p ∧ z ∈ h.kids y ∧ h.tag z = t) := by
  obtain ⟨l, ⟨N, hN⟩, _, hm⟩ := C26_each_once H p
  refine ⟨l.any fun c => isTagIn h c t, ⟨N, fun n hn => by simp only [deepIsTagIn, hN n hn, Option.map_some]⟩, ?_⟩
  simp only [List.any_eq_true, hm, C45_is_tag_in H]
  exact ⟨fun ⟨y, a, z, b, c⟩ => ⟨y, z, a.1, a.2, b, c⟩, fun ⟨y, z, a, b, c, d⟩ => ⟨y, ⟨a, b⟩, z, c, d⟩⟩

/-- C45 (defect). … so `t.deep.is_tag_in(tag)` can be False although a child carries the tag -/
theorem C45_deep_is_tag_in_misses_children : Delivers (fun n => deepIsTagIn n demo 0 (.other 2)) false ∧ 2 ∈ demo.kids 0 ∧ demo.tag 2 = .other 2 := by
  refine ⟨?_, by decide +kernel, by decide +kernel⟩
  obtain ⟨b, ⟨N, hN⟩, hb⟩ := C45_deep_is_tag_in_partial demo_tidy.reach 0 (.other 2)
  have : b = false := by
    have e := hN (max N 20) (by omega)
    obtain ⟨M, hM⟩ := C26_preorder (tree_rep demo_core.wf demo_core.forest 0)
    have f := hM (max N (max 20 M)) (by omega)
    have e' := hN (max N (max 20 M)) (by omega)
    rw [tree_id] at f
    have g : ((demo.tree 0).deep.map Tree.id) = [1, 4, 2, 3, 5] := by decide +kernel
    simp only [deepIsTagIn, f, g, Option.map_some, Option.some.injEq] at e'
    rw [← e']; decide +kernel
  exact ⟨N, this ▸ hN⟩

/-! ### deep index -/

theorem byIdx_snoc {a : List Int} {i : Int} {p y : Id} (hb : byIdx h p (a ++ [i]) = .ok y) : ∃ q, byIdx h p a = .ok q ∧ pyGet (h.kids q) i = some y := by
  rw [byIdx_append] at hb
  cases e : byIdx h p a with
  | error e' => rw [e] at hb; cases hb
  | ok q =>
    rw [e] at hb
    refine ⟨q, rfl, ?_⟩
    simp only [byIdx] at hb
    cases e2 : pyGet (h.kids q) i with
    | none => rw [e2] at hb; cases hb
    | some c => rw [e2] at hb; simp only [Except.ok.injEq] at hb; rw [hb]

/-- non-negative index paths to the same item of the same length are equal -/
theorem byIdx_unique (W : WF h) : ∀ (k : Nat) (a b : List Int) (r y : Id), a.length = k → b.length = k → (∀ i ∈ a, 0 ≤ i) → (∀ i ∈ b, 0 ≤ i) →
    byIdx h r a = .ok y → byIdx h r b = .ok y → a = b := by
  intro k
  induction k with
  | zero =>
    intro a b r y ha hb _ _ _ _
    rw [List.length_eq_zero_iff.1 ha, List.length_eq_zero_iff.1 hb]
  | succ k ih =>
    intro a b r y ha hb na nb ea eb
    obtain ⟨a, i, rfl⟩ := List.eq_nil_or_concat a |>.resolve_left (by rintro rfl; simp at ha)
    obtain ⟨b, j, rfl⟩ := List.eq_nil_or_concat b |>.resolve_left (by rintro rfl; simp at hb)
    obtain ⟨q, e1, e2⟩ := byIdx_snoc (by simpa using ea)
    obtain ⟨q', f1, f2⟩ := byIdx_snoc (by simpa using eb)
    have g1 := pyGet_nonneg (na i (by simp)) e2
    have g2 := pyGet_nonneg (nb j (by simp)) f2
    have p1 := par_child W (List.mem_of_getElem? g1)
    have p2 := par_child W (List.mem_of_getElem? g2)
    rw [p1] at p2
    cases p2
    have hij : i.toNat = j.toNat := by rw [← pos_unique (W.kids_nodup q) g1, ← pos_unique (W.kids_nodup q) g2]
    have hij : i = j := by have := na i (by simp); have := nb j (by simp); omega
    rw [ih a b r q (by simpa using ha) (by simpa using hb) (fun x hx => na x (by simp [hx])) (fun x hx => nb x (by simp [hx])) e1 f1, hij]

theorem below_path {p y : Id} (b : Below h p y) : ∃ a : List Int, (∀ i ∈ a, 0 ≤ i) ∧ byIdx h p a = .ok y := by
  induction b with
  | refl => exact ⟨[], by simp, rfl⟩
  | step _ hc ih =>
    obtain ⟨a, h1, h2⟩ := ih
    obtain ⟨n, hn, e⟩ := List.getElem_of_mem hc
    refine ⟨a ++ [(n : Int)], ?_, ?_⟩
    · intro i hi
      rcases List.mem_append.1 hi with hi | hi
      · exact h1 i hi
      · simp only [List.mem_singleton] at hi; omega
    · rw [byIdx_append, h2]
      simp only [byIdx, pyGet_nat, List.getElem?_eq_getElem hn, e]

theorem byIdx_up (W : WF h) : ∀ (k : Nat) (a : List Int) (p y : Id), a.length = k → (∀ i ∈ a, 0 ≤ i) → byIdx h p a = .ok y → ancestor h k y = some p := by
  intro k
  induction k with
  | zero =>
    intro a p y ha _ e
    rw [List.length_eq_zero_iff.1 ha] at e
    simp only [byIdx, Except.ok.injEq] at e
    simp [ancestor, e]
  | succ k ih =>
    intro a p y ha na e
    obtain ⟨a, i, rfl⟩ := List.eq_nil_or_concat a |>.resolve_left (by rintro rfl; simp at ha)
    obtain ⟨q, e1, e2⟩ := byIdx_snoc (by simpa using e)
    have g1 := pyGet_nonneg (na i (by simp)) e2
    have p1 := par_child W (List.mem_of_getElem? g1)
    simp only [ancestor, p1]
    exact ih a p q (by simpa using ha) (fun x hx => na x (by simp [hx])) e1

theorem ancestor_add : ∀ (a b : Nat) (x y : Id), ancestor h a x = some y → ancestor h (a + b) x = ancestor h b y := by
  intro a
  induction a with
  | zero => intro b x y e; simp only [ancestor, Option.some.injEq] at e; subst e; simp
  | succ a ih =>
    intro b x y e
    rw [show a + 1 + b = (a + b) + 1 by omega]
    simp only [ancestor] at e ⊢
    cases hp : h.par x with
    | none => rw [hp] at e; cases e
    | some p => rw [hp] at e; exact ih b p y e

/-- C45, C19. `t.deep.index(x, start, stop)` for a `t` with children (states reached without `sort` and `clear`): `L` are the items below `t` in the order of `iter(t.deep)`; the result is
the index path leading from `t` to the first item of `L` equal to `x` at or after `start` and before `stop`, or IndexError when there is none. Nothing observable changes. -/
theorem C45_C19_deep_index_partial (H : Tidy ms h) {p : Id} (hk : h.kids p ≠ []) (x : Id) {start stop : Option Id} :
    ∃ L : List Id, Delivers (fun n => deepList n h p) L ∧ ((∀ s, start = some s → s ∈ L) → (∀ s, stop = some s → s ∈ L) →
      (∀ s e, start = some s → stop = some e → L.idxOf s < L.idxOf e) →
      (∃ (n : Nat) (y : Id) (path : List Int) (h' : Heap), Delivers (fun k => deepIndexOf k h p x start stop) (h', .ok (some path)) ∧
        FirstAt (fun c => h.eqItem c x) L (startPos L start) (limitPos L stop) n ∧ L[n]? = some y ∧ byIdx h p path = .ok y ∧ Unchanged h h') ∨
      ((∃ h', Delivers (fun k => deepIndexOf k h p x start stop) (h', .error .index) ∧ Unchanged h h') ∧
        ∀ n, ¬ FirstAt (fun c => h.eqItem c x) L (startPos L start) (limitPos L stop) n)) := by
  obtain ⟨C, Z⟩ := H.inv
  have W := C.wf
  obtain ⟨L, ⟨N, hN⟩, hd, hm⟩ := C26_each_once H.reach p
  refine ⟨L, ⟨N, hN⟩, fun hs he ho => ?_⟩
  obtain ⟨k, r, e1, e2, e3⟩ := climb C Z p
  obtain ⟨h1, base, g1, g2, g3, g4, g5⟩ := idxPathAux_spec k h.next h p r [] C Z e1 e2 e3
  have hbase : h.idxPath p = (h1, .ok base) := by rw [Heap.idxPath, g1]; simp
  have heq : h1.eqItem = h.eqItem := by funext a b; simp only [Heap.eqItem, g2.tree]
  rcases findItem_spec h.eqItem hd x hs he ho with ⟨n, y, e, hy, hF⟩ | ⟨e, hF⟩
  · left
    have hb := (hm y).1 (List.mem_of_getElem? hy)
    obtain ⟨a, na, ea⟩ := below_path hb.1
    have up1 := byIdx_up W a.length a p y rfl na ea
    have up2 : ancestor h (a.length + k) y = some r := by rw [ancestor_add _ _ _ _ up1, e1]
    have C1 := C.ceq g2
    have Z1 := g2.noZombie Z
    -- the climb from y is short enough
    obtain ⟨ky, ry, c1, c2, c3⟩ := climb C Z y
    have hky : ky = a.length + k := by
      have l1 := levelAux_eq ky (max ky (a.length + k)) y ry c1 c2 (by omega)
      have l2 := levelAux_eq (a.length + k) (max ky (a.length + k)) y r up2 e2 (by omega)
      omega
    obtain ⟨h2, path, q1, q2, q3, q4, q5⟩ := idxPathAux_spec (a.length + k) h1.next h1 y r [] C1 Z1 (by rw [g2.ancestor]; exact up2) (by rw [g2.par']; exact e2)
      (by rw [g2.next]; omega)
    have hpath : h1.idxPath y = (h2, .ok path) := by rw [Heap.idxPath, q1]; simp
    rw [byIdx_congr g2.kids] at q4
    have hcat : byIdx h r (base ++ a) = .ok y := by rw [byIdx_append, g4]; exact ea
    have hpe : path = base ++ a := byIdx_unique W (a.length + k) path (base ++ a) r y q3 (by simp [g3]; omega) q5
      (fun i hi => (List.mem_append.1 hi).elim (g5 i) (na i)) q4 hcat
    refine ⟨n, y, a, h2, ⟨N, fun j hj => ?_⟩, hF, hy, ea, (g2.trans q2).unchanged⟩
    simp only [deepIndexOf, if_neg hk, hN j hj, hbase, heq, e, hpath, hpe]
    simp
  · right
    refine ⟨⟨h1, ⟨N, fun j hj => ?_⟩, g2.unchanged⟩, hF⟩
    simp only [deepIndexOf, if_neg hk, hN j hj, hbase, heq, e]

/-! ### non-vacuity -/

example : isIn demo 0 3 = true ∧ isIn demo 0 4 = false ∧ deepIsIn 9 demo 0 4 = some true ∧ deepIsIn 9 demo 2 4 = some false := by decide +kernel
example : FirstAt (fun c => c == 3) (demo.kids 0) (startPos (demo.kids 0) (some 2)) (limitPos (demo.kids 0) (some 5)) 2 := by
  have e : demo.kids 0 = [1, 2, 3, 5] := by decide +kernel
  rw [e]
  refine ⟨by decide, by decide, ⟨3, by decide, by decide⟩, fun m y a b hy => ?_⟩
  have ha : 1 ≤ m := a
  obtain rfl : m = 1 := by omega
  simp at hy; subst hy; rfl
/-- the start and stop children of the demo tree meet the conditions of `C45_index` -/
example : (∀ s, (some 2 : Option Nat) = some s → s ∈ demo.kids 0) ∧ (demo.kids 0).idxOf 2 < (demo.kids 0).idxOf 5 := by
  refine ⟨?_, by decide +kernel⟩
  rintro s ⟨⟩; decide +kernel

end ITree
