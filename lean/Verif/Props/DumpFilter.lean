import Verif.Proofs.DumpFilter
import Verif.Props.Serialize
/-
C71: `dumps(filter_method=…)`.
-/
namespace ITree

open Json (J PV Env SErr Style Supported Txt Elems)

/-- the items that are kept can be dumped (tag and value supported; link roots: a supported link, not marked for loading, local children only) -/
def DumpableF (f : Id → Bool) (N : Names) (E : Env) (h : Heap) (x : Id) : Prop :=
  ∀ y, Stays f h x y → DumpableAt N E h y

/-- C71 (what is stored, loaded links included; in part: at least one child passes the filter, see `C71_none_wrong`, and kept link roots are not marked for loading). For every consistent heap and every filter on items and placeholders: `dumps(filter_method=f)` delivers a text;
`loads` of this text makes a new parentless tree of new items, which is what `Tree.saved f` says (flags as in C33). -/
theorem C71_stored_partial {ms2 : ModelSet} {h h2 : Heap} (W : WF h) (F : Forest h) (H2 : Reach ms2 h2) (f : DItem → Bool) (sha : List Char → List Char) (N : Names) (E : Env) (st : Style) (typeName : List Char)
    (addHeader calcHash chk : Bool) {x : Id} (hk : ∃ c ∈ h.kids x, f (.item c) = true) (hd : ∀ y, Stays (onItems f) h x y → StorableAt N E h y) :
    ∃ text, Delivers (fun n => dumpsTextF f sha n N E st typeName addHeader calcHash h x) (.ok text) ∧
      ∃ h3 y, loadsText heapBuilder sha N E chk h2 text = (h3, .ok y) ∧ Reach ms2 h3 ∧ Unchanged h2 h3 ∧ h3.par y = none ∧ (∀ j, Below h3 y j → h2.next ≤ j) ∧
        (h3.tree y).shape = ((h.tree x).saved f).restored := by
  have R := tree_rep W F x
  have ei := tree_id h x
  obtain ⟨text, D, h3, y, e1, e2, e3, e4, e5, e6, -⟩ := load_saved W F H2 f sha N E st typeName addHeader calcHash chk (x := x)
    (saved_ne R _ (by rw [ei]; exact hk)) (stored_supported f hd R (by rw [ei]; exact .root)).2
  exact ⟨text, D, h3, y, e1, e2, e3, e4, e5, e6⟩

/-- C71 (partial: no loaded links among the kept items; at least one child passes the filter, see `C71_none_wrong`; flags as in C33). For every reachable state and every filter: `dumps(filter_method=f)` delivers a text; `loads`
of this text makes a new parentless tree of new items that has the tags, values, order and structure of the tree without the refused items and everything below them.  Items that do not pass need not be serializable. -/
theorem C71_filtered_partial {ms ms2 : ModelSet} {h h2 : Heap} (H : Reach ms h) (H2 : Reach ms2 h2) (f : DItem → Bool) (sha : List Char → List Char) (N : Names) (E : Env) (st : Style) (typeName : List Char)
    (addHeader calcHash chk : Bool) {x : Id} (hk : ∃ c ∈ h.kids x, f (.item c) = true) (hd : DumpableF (onItems f) N E h x) :
    ∃ text, Delivers (fun n => dumpsTextF f sha n N E st typeName addHeader calcHash h x) (.ok text) ∧
      ∃ h3 y, loadsText heapBuilder sha N E chk h2 text = (h3, .ok y) ∧ Reach ms2 h3 ∧ Unchanged h2 h3 ∧ h3.par y = none ∧ (∀ j, Below h3 y j → h2.next ≤ j) ∧
        (h3.tree y).shape = ((h.tree x).prune (onItems f)).shape.restored := by
  have W := H.core.wf
  have R := tree_rep W H.core.forest x
  have ei := tree_id h x
  have eb : ∀ y ∈ ((h.tree x).prune (onItems f)).ids, Stays (onItems f) h x y := prune_kept (onItems f) x R (by rw [ei]; exact .root)
  have P : ∀ y ∈ ((h.tree x).prune (onItems f)).ids, LocalKids h y := fun y hy hr => ((hd y (eb y hy)).2.2 hr).2.2
  have S := supported_of_heads (N := N) (E := E) (R.heads.prune (onItems f)) fun y hy => (hd y (eb y hy)).supported
  have e := saved_local f R P
  obtain ⟨text, D, h3, y, e1, e2, e3, e4, e5, e6, -⟩ := load_saved W H.core.forest H2 f sha N E st typeName addHeader calcHash chk (x := x)
    (saved_ne R _ (by rw [ei]; exact hk)) (by rw [e]; exact S)
  exact ⟨text, D, h3, y, e1, e2, e3, e4, e5, by rw [e6, e]⟩

/-- a filter that refuses the item 3 (its own value would be serializable or not – it is not looked at) and accepts all others -/
def not3 : DItem → Bool := fun d => d != .item 3

/-- the hypotheses hold for the demo tree; item 3 is gone, 1, 4 and 2 stay -/
example : (∃ c ∈ dumpDemo.kids 0, not3 (.item c) = true) ∧ DumpableF (onItems not3) stdNames envJ dumpDemo 0 ∧ ((dumpDemo.tree 0).prune (onItems not3)).ids = [0, 1, 4, 2] := by
  refine ⟨⟨1, by decide +kernel, rfl⟩, fun y hy => dumpDemo_dumpable envJ y ?_, by decide +kernel⟩
  induction hy with
  | root => exact .refl
  | kid _ hc _ ih => exact .step ih hc

/-- C71 (nothing refused): a filter that accepts every item gives the same result as no filter – for every bound on the rounds and every state. -/
theorem C71_accept_all (sha : List Char → List Char) (n : Nat) (N : Names) (E : Env) (st : Style) (typeName : List Char) (addHeader calcHash : Bool) (h : Heap) (x : Id) :
    dumpsTextF (fun _ => true) sha n N E st typeName addHeader calcHash h x = dumpsText sha n N E st typeName addHeader calcHash h x := by
  exact dumpsText_all sha n N E st typeName addHeader calcHash h x

/-- Disagreement: when no child passes the filter the text is no JSON text – `loads` fails instead of delivering the root alone. -/
theorem C71_none_wrong {ms : ModelSet} {h : Heap} (H : Reach ms h) (f : DItem → Bool) {σ ι : Type} (B : Builder σ ι) (s : σ) (sha : List Char → List Char) (N : Names) (E : Env) (st : Style) (typeName : List Char)
    (addHeader calcHash chk : Bool) {x : Id} (hk : ∀ c ∈ h.kids x, f (.item c) = false) (hd : DumpableF (onItems f) N E h x) :
    ∃ text, Delivers (fun n => dumpsTextF f sha n N E st typeName addHeader calcHash h x) (.ok text) ∧ loadsText B sha N E chk s text = (s, .error .json) := by
  have W := H.core.wf
  have R := tree_rep W H.core.forest x
  have ei := tree_id h x
  have K := hd x .root
  obtain ⟨j, e1, e2, -⟩ := head_row (N := N) (E := E) R (ks := []) (by
    rw [← rep_tagOf R, ← rep_flagsOf R, ei]
    have ev : (h.tree x).value = (h.node x).value := by have := R; revert this; rw [show h.node x = h.node (h.tree x).id by rw [ei]]; cases h.tree x; intro r; exact r.2.1.symm
    have el : (h.tree x).link = (h.node x).link := by have := R; revert this; rw [show h.node x = h.node (h.tree x).id by rw [ei]]; cases h.tree x; intro r; exact r.2.2.2.1.symm
    rw [ev, el]
    exact ⟨K.supported.1, K.supported.2.1, K.supported.2.2, trivial⟩) 0 0
  rw [ei] at e1
  obtain ⟨n0, D⟩ := dumpRowsF_delivers W f R
  have hk' : ∀ (ts : List Tree) all add d seen, (∀ k ∈ ts, f (.item k.id) = false) → Tree.rowsFL f false add all d seen ts = [] := by
    intro ts
    induction ts with
    | nil => intros; rfl
    | cons k ks ih =>
      intro all add d seen hf
      simp only [Tree.rowsFL, Bool.false_and, Bool.false_eq_true, if_false, hf k (by simp)]
      exact ih _ _ _ _ fun k hm => hf k (by simp [hm])
  rw [hk' _ _ _ _ _ fun k hkk => hk k.id (by have e := R.kids; rw [ei] at e; rw [e]; exact List.mem_map_of_mem hkk), ei] at D
  have dt : ∀ n, n0 ≤ n → dataTextF f n N E st h x = some (.ok ('[' :: '\n' :: (Json.dumps st j ++ ',' :: '\n' :: ['\n', ']']))) := by
    intro n hn
    have D' := D n hn
    simp only at D'
    simp only [dataTextF, D', Option.map_some, rowText_eq st e1, rowTexts, Nat.mul_zero, List.replicate_zero, List.nil_append, joinLines]
  exact ⟨_, ⟨n0, fun n hn => by simp only [dumpsTextF, dt n hn, Option.map_some]; rfl⟩, childless_text_bad B s sha N E st typeName addHeader calcHash chk e2⟩

example : (∀ c ∈ dumpDemo.kids 0, (fun d => d == DItem.item 3) (.item c) = false) ∧ dumpDemo.kids 0 ≠ [] := by decide +kernel

end ITree
