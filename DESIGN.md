# itertree – formal model in Lean 4: design

Source: /repo (BR1py/itertree, pinned). The model is a set of total, executable Lean functions that follow the Python text branch by
branch. Exceptions are values. Mutation is modelled on an explicit heap (object identity, parent pointers, cached indexes, family
dictionaries, flags), because the guarantees and the bugs of this code base live in the aliasing between `_items`, `_families`, the
parent and the cached positions. Generators are step machines over their local variables, run with explicit fuel; the theorems say how
much fuel suffices, so termination is proved, not assumed.

## Layers

| module | what | code modelled |
|---|---|---|
| `Verif/Base/*` | Python list indexing, slices, list methods, tags, values | language semantics |
| `Model/Heap, Idx, Lookup, Mutate, Flags, Step` | the objects, `idx`/`tag_idx` with their caches, `__getitem__`, all structure mutators, flags, values, histories of calls (with Model/More: also in-depth calls, arithmetic, unpickling) | itree_main.py, itree_private.py |
| `Model/Nav, Getter, Query` | root/level/paths/neighbours, `get(*path)`, enumerations, membership, `+`, `*`, `hash` | itree_main.py, itree_getitem.py, itree_indepth.py |
| `Model/Tree, Deep, CopyLoop` | snapshots, explicit-stack deep iterators, siblings, copy loop | itree_indepth*.py, itree_private.py |
| `Model/PyJson, Json, Serialize, Render` | value converter, JSON text grammar, dump/load incl. header, version, hash; renderer | itree_serializer/*.py |
| `Model/MathSet, MathStr, MathOps` | intervals, rosters, combinations, string form; filter, operators, equality and construction arguments of rosters and combinations, roster string form | itree_mathsets.py |
| `Model/CombStr` | string form of combinations | itree_mathsets.py 1826-1931, 2086-2112 |
| `Model/Builder` | set-builder definitions of intervals (from the groups of the regular expression) | itree_mathsets.py 638-812, 999-1356 |
| `Model/Filters, DataModel` | filter classes, value models and shape check | itree_filters.py, itree_data.py |
| `Model/Links` | loading of links | itree_main.py, itree_private.py |
| `Model/DeepMut`, `Model/FlagsLive` | in-depth reverse, sort, remove, flag calls (also with filters asked while the flags are written) | itree_indepth.py |
| `Model/Wide` | histories of all calls that write items (calls of Model/Step and Model/More, lists, subtraction, make_local, load_links, loading) | itree_main.py, itree_json_serialize.py |
| `Model/Objects` | a store of value objects, copy/deepcopy with memo, the three copy modes | itree_main.py, Python's copy module |
| `Model/ArgLists` | argument lists given to `extend` and the constructor | itree_private.py |
| `Model/ClearLocal` | `clear(local_only=True)` with the generator `_iter_locals_add_placeholders` | itree_main.py, itree_private.py |
| `Model/LoadDelete` | `load_links(delete_invalid_items=True)`: broken link roots are removed | itree_main.py |
| `Model/Coupled` | coupled objects as a table beside the heap: `set_coupled_object`, `coupled_object`, `equal(check_coupled=True)`, `load_links` | itree_main.py |
| `Model/SetItems` | comparisons and hash of `mSetItem` | itree_mathsets.py |
| `Model/SetVars` | `vars`, `has_vars`, `is_empty_set_complement` of the sets | itree_mathsets.py |
| `Model/SetList` | `t[target] = list`, `remove(*targets)` | itree_main.py |
| `Model/Size` | size comparisons, counters, `equal`, `force_cache_update` | itree_main.py |
| `Model/Levels` | `deep.levels`, bottom-up level queries, deep size comparisons, `deep.iter_family_items` | itree_indepth.py, itree_indepth_helpers, itree_main.py |
| `Model/GetBy` | the specific getters: `by_idx_list`, `by_tag`, `by_tag_idx…`, `by_tags` | itree_getitem.py |
| `Model/Legacy` | the older data classes `iTDataModel`, `iTData`, `iTDataReadOnly` (not: deepcopy, hash, repr, fromkeys) | itree_data.py 891-1510 |
| `Model/Subtract` | `t - u` (Python's `-` on tags and values is a parameter) | itree_main.py 2220-2265 |
| `Model/Dot` | the graphviz renderer | itree_serializer/itree_render_dot.py |
| `Model/Repr` | `repr` (links included), evaluation of the printed text, `__reduce__` (link roots and placeholders included) | itree_main.py |
| `Spec/*` | small specifications that do not use the model's algorithms | – |
| `Proofs/*` | helper lemmas | – |
| `Props/*` | the property theorems (`Cnn_…`), each with concrete examples | – |

## Method per property group

C01, C02, C25: invariant over the heap, true in the empty heap and preserved by every call described by `Allowed` (Spec/History);
induction over call histories (all structure, flag and value calls, the further calls of `More` – in-depth reverse/sort/remove/flags, force_cache_update, remove of a list, clear(local_only), +, *, evaluation/unpickling –, plus `load_links` of childless own-tree links, also nested ones, `MayLoad`; histories with make_local or with reloading over local children are not included). Every exclusion in `Allowed` is backed by a counterexample theorem (Props/Defects).
C03–C16: refinement of every mutator to the plain children list plus a frame statement for all other objects.
C17, C18: the cached search returns the true position for arbitrary cache content. Built-up trees (`BuiltUp`): invariant "every stored family position is exact" (AllFresh), induction over the history.
C19: induction on the ancestor chain. C20: decision logic of `__getitem__` against Python list semantics (Spec/Slice).
C21–C23: flag bit logic, case analysis over every call; C21_frozen, C22_frozen: instances of a frame rule (Proofs/Frame: which objects a call can write, for an arbitrary invariant) and induction over histories. C24: the error branch of every call leaves the heap unchanged – or a counterexample.
C26–C30: loop invariants of the explicit-stack machines against recursive pre-/post-order specifications (Spec/Order).
C31: copy loop = structural copy, frame. C32: analysis of `__eq__`.
C33–C35: round trips by induction over trees, values and texts; the hash is an arbitrary function. Children of links become placeholders as the
code writes them (`Spec/Dump`: `Tree.stored`).
C36: rendered lines = map over pre-order. C37–C40, C51, C52: semantics over the extended rationals. C41–C43: decision logic.
C44, C45, C48: refinement against the children list. C46: linked clone loop. C47, C50: refinement with fresh copies.
C49: every call reads and writes only what is connected to the items it mentions.
C53: decision logic of the value functions. C54, C55: loop invariants over the trees below the receiver; C55 with live filters: the lazy walk equals the loop over the selection made beforehand, by induction on the tree. C56: simulation of the memo copy,
reachability in the object store is closed under every later program. C58–C60: decision logic and cache refinement. C61: loop invariant
of the level loop (stop set = the level to be skipped). C62: the code always raises; proved as such. C57: reader inverts printer by induction over trees.
C69: loop invariant (keys of the partners) over the children of `u`; frame for every outcome by separation. C70: the recursion over the tree against the
pre-order with positions as numbers. C71: the generator on the filtered children against the pruned tree.
C72: recursion over documents against a relation "document stands for tree"; the constructor law of C33.
C73: replacement relation (one child exchanged for another of the same tag) keeps consistency; undo by the same relation in the other direction.
C74: loop invariant over the children of the source (LoadSpec: what is new, what is kept, which key each child stands for), connected with the list-level merge of C46; the recursive call is a parameter of the loop; witnesses for the defects evaluated by the kernel.
C75: file system as a map from names to texts, gzip as a pair of functions with two laws; composed from C33.
C76: paths as a relation (`LeadsTo`) independent of the search loop; the walk over all items below by induction over the tree with an invariant telling which links are loaded; composed with C74.
C77: flags by deciding all 64 values (the whole domain); link queries against relations on the heap (`LinkTop`, `LinkLoaded`) by induction over the depth; list helpers by induction.
C78: induction over nested sets, two dictionaries side by side.
C79: the extended number line as specification of the order.
C81: further instances of the frame rule (invariants of one object). The `_wide` theorems (C21, C22, C81) run the same invariants through Model/Wide: all modelled calls that write items, links and files included.
C82: an invariant of the loader loops over arbitrary rows (Proofs/AnyText: what survives constructor calls survives any text), with C50 as the description of one constructor call.
C83: induction over the nested calls allowed, with an invariant of everything loading leaves alone (Proofs/Circle: children and families of items that are no link roots, parents of items outside of link roots, links of the circle), so that the search finds the same targets again at every depth.
C84: induction over the nested calls allowed; a call changes only the children and links of the link roots it loads (LoadsOnly), so the later ones are still ready (Nested.later) and what the new items show later is what it was before (ShowsItem.back); the stored family positions stay exact (AllFresh), so no key read fails. Shared link roots: induction over the depth (CanLoad); a load touches only waiting link roots (Touch), so what was ready stays ready and what is up to date stays so; a link root does not need itself because its depth is minimal.
C80: the table beside the heap; the loop of load_links run with and without the table (same heap), and the identity of every new item from the loop invariant of C74.

## Status

<!-- table -->
| property | status | theorems | what is proved / what is missing |
|---|---|---|---|
| C01 Family view agrees with the item order | partial | 6 | Proved after every history of `Allowed` calls and of load_links on own-tree link roots without children (`MayLoad`) and of in-depth calls (reverse, sort, remove, flags), force_cache_update, remove(list), clear(local_only), +, *, eval/unpickling (`MoreOK`; any length, exceptions caught by the caller). Missing because false in the code: insert below -len (C05_C01_insert_below), del of a slice (C09_C01_del_slice), replacing the only member of a family (C10_C01_empty_family), renaming an item that has an equal same-tag sibling (C12_C01_rename_twin). |
| C02 Parent and child agree | partial | 3 | Child => parent, no duplicates, single parent: after every allowed history (as C01). Both directions: for allowed histories without sort/clear, which leave former children with their old parent (C15_sort_replaces, C16_clear_leftovers); t[tag]=x does the same (C10_C02_replace_family). |
| C03 append adds exactly one last child | proved | 3 | Full statement, on every state reached by allowed calls; the two exclusions of `Allowed` for append concern only the root of the receiver's own tree (C25_cycle). |
| C04 appendleft adds exactly one first child | proved | 3 | Full statement, as C03. |
| C05 insert works like list.insert | partial | 9 | If the call returns and k >= -len, the result is list.insert (C05_insert_partial). Returning is guaranteed when no cached position is off by more than 19 (C05_insert_near), e.g. for the next 20 insertions inside the list after the positions were read (C05_inserts_after_reading), for a new tag and at the ends; otherwise the family search may raise AttributeError (C05_C24_insert_crash, C05_C24_insert_beyond_end). False below -len (C05_C01_insert_below); an item as target is never accepted (C05_insert_item_target). |
| C06 The family position search is exact | proved | 1 | For every family, every absolute position and every cache content. |
| C07 extend appends in order | proved | 5 | Items and values: C07_extend. An item as argument, wherever it is: C07_extend_tree. Argument lists: C07_extend_lists; a Python list among the items is never a value (C07_list_is_no_value, documented behaviour of the code, not of the other methods). |
| C08 extendleft prepends in order | partial | 2 | Missing because false: an argument that already is a child of the receiver (C08_extendleft_own_child). |
| C09 del t[i] / pop(i) removes exactly that child | proved | 8 | Statement (integer indexes) proved in full, also for keys and remove. The slice form of del is defective: C09_C01_del_slice, C09_C24_del_slice_error. remove with several items: C09_remove_many, C09_C24_remove_many_foreign. |
| C10 t[i] = x replaces exactly that child | partial | 9 | If the call returns; across tags only if the old family has another member. Otherwise false (C10_C01_empty_family, C10_C24_empty_family_insert, C10_C02_replace_family). Lists: C10_set_list for targets denoting several children (each new object with the tag of the one it replaces); false for a target denoting one child (C10_set_list_single_wrong) and when the tag of the new item is the integer used as index (C10_int_tag_wrong). |
| C11 move repositions an item | partial | 6 | x.move(): full. x.move(k): if it returns, x is taken out and list.insert(k,x) done; this is `before the item at k` iff x stood at or behind k (C11_move_before, C11_move_lands_after). Crash of the family search: C11_C24_move_crash. It returns when no cached position is off by more than 18 (C11_move_near). |
| C12 rename changes only the tag | partial | 4 | Proved if no same-tag sibling compares equal; otherwise the wrong item is taken out of the family (C12_C01_rename_twin). |
| C13 reverse reverses | partial | 3 | Item with children: proved. Never filled item: AttributeError (C13_reverse_never_filled). |
| C14 rotate rotates | partial | 4 | \|n\| <= len proved; beyond len the call raises after taking all children out (C14_rotate_too_far). |
| C15 sort is a stable sort that keeps the items | partial | 2 | Order and stability proved; the items are replaced by copies, so identity is not kept (C15_sort_replaces). |
| C16 clear empties the item | partial | 8 | Children and value are dropped; former children keep their parent (C16_clear_leftovers) and all flags are cleared (C16_clear_drops_flags). clear(local_only=True) on link roots is described exactly for every reachable state (C16_clear_local); it deletes while iterating, so it leaves every second local child (C16_local_only_wrong) and is refused on loaded link roots whose first child is linked (C16_local_only_loaded_wrong). |
| C17 idx is the true position whatever the caches hold | proved | 4 | For every child in every reachable state and, separately, for arbitrary cache contents. |
| C18 tag_idx is the true family position whatever the caches hold | partial | 7 | Position and lookup right in every reachable state; missing: the first read may deliver the bare number instead of the pair (C18_tag_idx_bare); the second read always delivers the pair (C18_tag_idx_second). For trees that were only built up (constructors, append, appendleft-free extends, copies, reads) the first read already delivers the pair and changes nothing (C18_grown). |
| C19 Paths lead back to the item | partial | 6 | idx_path full (states without sort/clear, where parents are meaningful). tag_idx_path: elements may be bare numbers on the first read, right on the second read. For built-up trees every element is a pair at the first read (C19_grown). |
| C20 Lookup by index, slice and key follows Python lists | proved | 8 | Full statement on every reachable state. |
| C21 Structure protection is effective | proved | 9 | Every structure changing call, single and in histories; a protected item (C21_frozen) and a protected subtree (C21_frozen_subtree) stay as they are through every history of calls on any items, from every state. C21_wide_frozen: also through load_links (own tree and files), make_local, subtraction, list assignment, loading. |
| C22 Value protection is effective | partial | 6 | set_value and set_key_value in every state; del_value/del_key_value for the read-only flag; the value through every history (C22_frozen). Defects: for linked items del_value succeeds although is_value_read_only is True (C22_del_value_linked); clear() deletes a read-only value without an error (C22_clear_wrong). C22_wide_frozen: also through load_links, make_local, subtraction, list assignment, loading. |
| C23 set_tree_read_only is deep and unset is exact | partial | 6 | Setting is deep and exact if no linked item is below; with one it stops in the middle (C23_C24_set_stops). Unsetting one flag drops all flags (C23_unset_drops_all, C23_unset_unlocks). |
| C24 Failed calls change nothing | partial | 15 | For every call described by `Clean`; each exception to it has a counterexample theorem (insert, move, del slice, del list, replace, set flags). |
| C25 No cycles | partial | 6 | After every allowed history. Without the exclusion (putting the root of a tree into its own tree) the code builds a cycle: C25_cycle, C25_cycle_after_sort. |
| C26 Down iteration is pre-order | proved | 5 | For every finite tree represented in the heap (every item of every reachable state is one, C26_tree). |
| C27 Up/reverse iterations are the named orders | proved | 6 | All four orders, with SELF; stack machine against recursive orders. |
| C28 Filtered deep iteration is hierarchical unless FILTER_ANY | proved | 3 | For every filter predicate on items. |
| C29 Path iterators agree with the items | partial | 3 | idx_paths: full. tag_idx_paths: all options except SELF with a hierarchical filter top-down, where the start item is delivered twice (C29_tag_idx_paths_self_twice). |
| C30 Deep length and depth | proved | 7 | Full statement. |
| C31 copy is an equal, independent tree | partial | 8 | Shape, freshness, root, unchanged original: full. Independence of later changes: for states reached without sort/clear (C49_C12_stray_after_sort shows why). |
| C32 == is an equivalence on content | partial | 14 | Reflexive, symmetric, equal content => equal. False in general: transitivity (C32_not_transitive), descendant tags ignored (C32_descendant_tags_ignored), hash (C32_hash_mismatch). |
| C33 dump/load round trip | partial | 6 | Round trip of the text for every tree with at least one child, link roots included as long as their links are not loaded (C33_load_shape, C33_round_trip_partial); flags up to the downward propagation on load (C33_flags_wrong); a childless root is dumped as invalid JSON (C33_childless_wrong). Loaded links: what is stored and loaded is proved for every consistent heap (C33_stored_partial, placeholders included); every other linked child is stored in full and comes back as a linked item without source (C33_linked_stored_wrong). |
| C34 JSON value conversion round trip | partial | 3 | Stdlib json path: every supported value. orjson: inf and big ints are changed/raise (C34_orjson_inf_wrong, C34_orjson_bigint_wrong). |
| C35 Tampered or foreign data is rejected on load | proved | 4 | The hash function is a parameter (any function); rejection is proved whenever the hashes differ. A text without HASH entry is not checked by the code. |
| C36 render prints every item once, indented by level | partial | 10 | Lines = pre-order map for all trees; enumerate without filter raises (C36_enumerate_wrong); the root is subject to the filter although documented otherwise (C36_root_filtered). |
| C37 Interval membership | proved | 11 | Numbers are exact (int, rational, ±inf); float rounding is not modelled. Variable limits, roster variables and iterables of elements: C37_variable_limits, C37_roster_vars, C37_iterable. |
| C38 Complement negates membership | partial | 4 | For every single object asked for; for iterables asked for as a whole it is false by construction (C38_not_for_iterables). |
| C39 Union and intersection | proved | 8 | For any list of sets whose members do not raise, plus the hit rule when later members raise. The operators + and - are union and intersection (C39_operators). |
| C40 Interval iteration and cardinality | partial | 15 | Counterexamples: half-open point interval, float limits, complements. is_empty_set_complement: intervals and rosters in full; wrong for combinations (C40_universal_wrong). |
| C41 Filters match exactly what they describe, invert is negation | partial | 8 | `Suits` names the intended use of each filter; outside it the counterexamples *_wrong. |
| C42 Value models only store accepted values | partial | 13 | set(NoValue) returns a stale exception / other defects *_wrong. |
| C43 Shape check is the documented dimension limit | partial | 5 | All shapes except (Any,); values without one-character strings. |
| C44 Enumerations of children agree | partial | 14 | Never filled item: AttributeError (C44_never_filled); iter_families delivers None for an item without children. |
| C45 Membership queries | partial | 17 | `tag in t` never true (C45_contains_tag_never); index on an empty item delivers None; deep.is_tag_in ignores the first level. |
| C46 Linked items mirror their source and are protected | partial | 11 | Keys/tags/values in deep order and protection proved; structure only if only last siblings have children (C46_structure_wrong); reload and removal defects *_wrong. File links: C76. |
| C47 Item arithmetic | proved | 6 | Full statement for t+u (t not a link root), t*n, n*t. `t*item` not modelled. |
| C48 Multi-target get | partial | 14 | Keys with slices excluded (C48_key_slice_wrong). by_idx_slice, same_index_children, by_tag in full (C48_by_idx_slice, C48_same_index, C48_by_tag); by_level_filter stops after two levels (C48_level_filter_stops), tag paths always raise (C48_tag_path_wrong), by_idx_list with negative indexes (C48_by_idx_list_wrong). |
| C49 Trees do not influence each other | partial | 2 | The state before must be reached without sort/clear (C49_C12_stray_after_sort); the history itself is arbitrary: all calls of `Call` and `More` (in-depth calls, arithmetic, unpickling), allowed or not. |
| C50 The constructor builds exactly the given children | proved | 3 | Full statement. Argument lists as subtree, links as file and path included: C50_argument_lists; with a link (not loaded at once): C50_link. |
| C51 Interval equality and construction arguments | partial | 11 | get_init_args(): full. == : for limits open/closed alike; otherwise wrong (C51_equal_wrong); get_init_args(full=True): C51_full_args_wrong. Rosters: C51_roster_args, C51_roster_equal (full). Combinations: C51_combine_args_partial (two or more members); single member and == of combinations: C51_combine_args_wrong, C51_combine_equal_wrong. |
| C52 Interval string form round trip | partial | 9 | Limits integer (not 0), infinite or variable; an interval with limit 0 has a string form the constructor refuses (C52_zero_wrong). Float limits not modelled in the string form. Rosters: C52_roster_round_trip_partial, C52_roster_wrong. Combinations: C52_combine_round_trip_partial (two or more plain members, first member neither complement nor lower-open); C52_combine_wrong, C52_combine_member_wrong, C52_nested_wrong: a leading complement member and nested combinations are read wrongly or rejected. |
| C53 What is stored is what is read | proved | 10 | Full statement for dict, list and other values; dict keys hashable and pairwise different, as in Python. Values have no identity in the model (in-place change of a shared object is not modelled). |
| C54 In-depth reverse, sort and remove | partial | 7 | deep.reverse: full (n is the recursion limit). deep.sort: children are replaced by copies as by sort; keys that depend on the data of the item and below it, no links. deep.remove: without key-slices (see C48). Protected items and repeated targets stop the calls half-way (C54_C24_reverse_stops, C54_C24_remove_twice). |
| C55 In-depth flag calls | partial | 8 | set: full for filters that look at the item they are asked about, its flags included (C55_live_filter, C55_live_set_value: asked while the flags are being written they select what they selected before); C55_live_parent shows the difference for filters that look elsewhere. unset: only for items without other flags, all flags are dropped otherwise (C55_unset_drops_all). |
| C56 Copies and value objects | proved | 7 | Statement proved in full (deepcopy: whenever the recursion limit suffices, and it does for some limit). Beyond it: instances of user classes are shared by copy() although documented as copied (C56_copy_shares_instances). copy/deepcopy of the standard library are modelled; user defined __copy__/__deepcopy__ are not. |
| C57 repr and pickle rebuild the tree | partial | 7 | eval(repr(t)) and pickle give the tree with flags read-only-tree/load-links pushed down (C57_repr_eval, C57_pickle); exactly the same tree when flags are already downward closed (…_same_partial); false otherwise (C57_pickle_flags_wrong). repr hides children deeper than recursionlimit/5 (C57_repr_deep_wrong). Link roots are covered: repr shows file and path, eval and unpickling give them back (not loaded); linked children are pickled as dumps store them (C57_pickle_stored, C33). Not modelled: evaluating the repr of a loaded link (it has the flag LOAD_LINKS, so eval loads it). |
| C58 Size comparisons and counters | partial | 7 | Order, filtered_len: in full. tag_number: after allowed histories; false after replacing the only member of a family (C58_tag_number_wrong). <= and >= together do not give == (C58_antisymm_wrong). |
| C59 equal with options | proved | 3 | check_coupled=True: C80. |
| C60 force_cache_update makes positions directly readable | partial | 2 | The default call in full; force_cache_update(all_keys=False) raises because the family is looked up in the item itself (C60_own_family_wrong). |
| C61 Iteration level by level | partial | 10 | Full statement for 0 <= s <= e and st >= 1 (C61_levels_partial, C61_levels_items_partial), downwards without end (C61_levels_down_partial), lists without level 0 (C61_level_list_partial). Otherwise false: MULTIPLE without SELF never ends (C61_multiple_wrong), end before start, end 0, end with negative step (C61_stop_wrong), slice(None) (C61_none_wrong), a start too deep (C61_down_wrong), lists beginning 0, 1 (C61_level_list_wrong; C61_level_list_zero_wrong for every tree). |
| C62 Bottom-up level queries | partial | 2 | False in the code: the queries use ITER.INNER, which does not exist, and raise AttributeError for every item with children (C62_bottom_up_wrong); leaves: C62_leaf_partial. |
| C63 Older data models only hold validated values | partial | 4 | History and set in full (C63_history, C63_set). check() stores the value and leaves the cached text (C63_check_wrong), so the text is right only in histories without check (C63_format_partial). |
| C64 iTData stores and guards | partial | 9 | Storing, deleting, order, uniqueness of keys, clear in full. False in the code: d[k]=v, del and pop never reach a stored model but overwrite or remove it (C64_guard_wrong); a single object that dict() can read, wholly or in its first entries, is taken apart (C64_single_wrong). |
| C65 iTData.update is all-or-nothing | partial | 4 | All-or-nothing in full (C65_update_atomic). What a successful update stores: C65_update_partial; models holding a false value are replaced, KeyError/AttributeError of the validator is swallowed, replace_models=False becomes an item (C65_update_wrong). |
| C66 iTDataReadOnly never changes | partial | 2 | Histories without popitem and setdefault (C66_read_only_partial); these two inherited calls change the object (C66_read_only_wrong). |
| C67 iter_in and filter agree with membership | partial | 3 | Elements that are not (value, dict) pairs; for those intervals and rosters ignore the pair dict in iter_in (C67_iter_in_wrong). |
| C68 Set-builder definitions mean what they say | partial | 9 | C68_supported_partial: closed limits that are numbers and in order, (in)equalities, documented domains alone or with an upper limit; C68_equal_variable: variables in (in)equalities. Everything else fails in the code: open limits (C68_open_wrong), variables in comparisons (C68_variable_wrong), a second lower limit (C68_second_lower_wrong), a domain after a lower limit (C68_domain_lower_wrong), swapped limits (C68_swapped_wrong), C68_domain_open_wrong, C68_domain_wrong. The regular expression is not modelled: the groups it delivers are the input. |
| C69 Subtraction of items | partial | 10 | C69_sub_partial: all children of u have an equal partner under the same key, in the order of t, keys known (C69_after_reading: read once), t unprotected and without links; C69_operands_untouched_partial: operands never change, whatever the outcome (histories without sort and clear). False in the code otherwise: other orders delete other items or raise (C69_order_wrong, C69_order_raises_wrong), keys only u has raise (C69_missing_wrong, C69_longer_wrong), a recursive difference loses its tag and shifts the family (C69_shift_wrong), leaves an empty family (C69_empty_family_wrong), protected t raises (C69_protected_wrong). What Python's - answers for tags and values is a parameter. |
| C70 The graph description is the tree | partial | 6 | C70_dot_partial: whole text, for items whose number is stored (read once) and no link root with value; C70_tree: numbers unique, every parent shown before its children. False in the code: bare tag_idx and link roots with value raise TypeError (C70_outdated_wrong, C70_link_value_wrong), quotation marks are not escaped (C70_quotes_wrong). For built-up trees no number must have been read before (C70_grown_partial). |
| C71 Filtered dumps | partial | 4 | C71_stored_partial: what a filtered dump stores (placeholders included) is what loads gives back; C71_filtered_partial: whole text, reload gives the hierarchically filtered tree (links of kept link roots not loaded, flags up to C33's downward propagation); C71_accept_all: same text as without filter. False in the code: when no child passes the text is no JSON (C71_none_wrong). |
| C72 Old files are converted | partial | 8 | C72_convert_partial: every document that stands for a tree (Spec/Convert; link roots with file and path included, JSON scalars and typed containers as tags and values) gives that tree; C72_refused: version and hash checks. False in the code: data containing the separator (C72_separator_wrong), untyped dictionaries (C72_plain_dict_wrong, C72_two_chars_wrong), plain lists with typed elements (C72_list_wrong), items without data get None (C72_no_data_wrong), read-only items with a link lose their protection (C72_link_flags_wrong). |
| C73 Linked items can be made local and taken back | partial | 6 | Refusal, replacement and undo proved for every consistent heap; the subtree keeps tags and values in deep order, its structure only if only last siblings have children (C73_structure_wrong); TypeError when tag_idx needs a full scan (C73_far_cache_wrong); a negative index puts the linked item back one position too far left (C73_negative_wrong). |
| C74 Loading a link builds the mirror and keeps the locals | partial | 13 | First loading and reloading proved on the heap for every consistent state whose source is apart from the link root, has no linked children and readable keys; the search for the source is a parameter. Defects: dropped linked children keep their parent, a covering link root loses its own link, a circular link loses the locals, linked children of the source are shared, an outdated key position is a TypeError (C74_*_wrong). Sources that contain link roots: C84. Calls on items that are no link root and delete_invalid_items: C76. |
| C75 Files hold the tree and are not overwritten unasked | proved | 4 | Relative to a file system with named texts and a sound gzip (packed data is unpacked again; a text starting with [ is not taken for packed data); values and tags as in C33. |
| C76 Links find their target, load_links() loads all links below | partial | 23 | Target search proved for every consistent tree; load_links() on any item proved for childless, not yet loaded link roots whose sources contain no link roots and are apart from them; nested link roots: C84. Whatever the links below are and whatever the result, only link roots get other children (C76_only_link_roots, C76_only_below). Defects: a first path entry equal to the root tag is dropped even if it is a position; load_links() may never come back although no link leads to an item around the link root: with R(S(c(P)), D(Q)), P and Q leading to S, loading the links in D makes copies without end (C76_endless_wrong); searching shortens the path, so a second search finds another item; paths of plain tags are refused; is_file_updated answers the opposite, so a changed file is never loaded again (C76_*_wrong). File links are proved end to end (dump, load, link) for files without links (C76_file_link_partial). delete_invalid_items=True proved for one broken link root (C76_delete_broken, C76_delete_only_partial); with more it skips the sibling behind a removed item and fails half way if a source contains a broken link root. |
| C77 Items and options describe themselves | partial | 16 | In full except where the code is wrong: link_root of an item that is not linked is None instead of the item (C77_link_root_wrong), rindex leaves the list reversed when the value is missing (C77_rindex_wrong), getter_to_list raises for a missing result (C77_to_list_wrong), DOWN is shown twice in option texts (C77_option_str_wrong). |
| C78 The variables of a set | proved | 5 | In full: dependence only on vars for every set and every question that is no (value, dict) tuple; refusal for missing limits of intervals. |
| C79 Set items compare and hash by their values | partial | 6 | Order in full. Equality is reflexive and symmetric; transitivity and the hash only for items with the same complement flag (C79_eq_hash_wrong, C79_order_eq_wrong). |
| C80 Coupled objects stay with their item | partial | 9 | Setting, histories and equal(check_coupled=True) proved; load_links proved for the children of the link root (hypotheses of C74). Defects: objects that count as false and objects of items further below are lost when a link is loaded again; never coupled and coupled with None compare as different. |
| C81 Tag, value, flags and link of an item change only by calls on it | proved | 6 | From every state and for every history of the modelled calls; C81_wide_*: tag, value, flags also through load_links (own tree and files), make_local, subtraction, list assignment, extend with lists, loading texts and files (load_links may write the link of an item, see C74). Value objects shared between items are C56/C80. |
| C82 Loading any text is safe | partial | 3 | Any text and any file (the hash, the names and the classes in the text are parameters). Missing: link roots with the flag LOAD_LINKS in the text, whose links the constructor loads at once (C82_untouched_partial holds for the modelled loader without this restriction, for histories without sort and clear). |
| C83 Circular links are refused | partial | 3 | For circles of any length inside one tree, whatever other links and files are loaded on the way (proved of the modelled disk and loader). Missing: circles that lead through files or lie below link roots or linked items; the local children of the link roots are lost (C74_circle_wrong). |
| C84 Links to items that contain links | partial | 7 | Own-tree links nested to any depth; in states reached by building trees and loading such links the call succeeds (C84_load_partial), in all states without sort and clear before its result is described when it delivers one (C84_loaded_partial) and what it may change always (C84_only_partial). Link roots needed for several others, some of them loaded before, in any order and more than once: C84_ready_partial, C84_again_partial, C84_any_order_partial. Defect: a copy of a link root is never marked as loaded, so load_links() on the tree loads it again and turns its first linked child into a cover (C84_copies_wrong). Missing: paths through link roots, links into files on the way, link roots that have children of their own. |
<!-- /table -->

## Disagreements between code and documentation found while proving

Each has a theorem with a concrete witness unless marked (not modelled).

* insert/move: the family search may run out of its ±20 window and raise AttributeError *after* the item list was changed
  (C05_C24_insert_crash, C11_C24_move_crash); insert below -len puts the item before the last child and first into the family.
* `move(k)` to a later position lands behind the target; a target given as item never works.
* `clear(local_only=True)` deletes children from the list it iterates over: every second local child stays (C16_local_only_wrong); a loaded link root whose first child is linked refuses the call
  (C16_local_only_loaded_wrong).
* `mSetItem`: an item with complement flag equals every other number without it: == is not transitive, does not go with the hash and the order (C79_eq_hash_wrong, C79_order_eq_wrong).
* `del t[a:b]` takes the items out of the list but updates only the first item's family, or raises in between; `del t[[0,0]]` half-done.
* replacing the only member of a family leaves an empty family that is found by tag and breaks the next insert.
* `t[tag]=x` leaves the replaced items with their parent. `extendleft` moves own children and copies them.
* `rename` takes an *equal* sibling out of the family instead of the item itself.
* `sort` replaces all children by copies; `clear` keeps the children's parent pointers and drops all flags.  It also deletes a read-only value without an error (C22_clear_wrong).
* `rotate(n)` beyond len raises after all children were taken out; `reverse`, `keys`, `items` on a never filled item: AttributeError.
* adding the root of a tree below itself is not refused: a cycle.
* unsetting one flag drops all flags; `set_tree_read_only` stops half-way at a linked item; `del_value` works on linked items.
* first read of `tag_idx` may deliver a bare number.
* `==` ignores tags of descendants, is not transitive; equal items may have different hashes.
* `tag in t` is never true; `index` on an empty item delivers None; `deep.is_tag_in` ignores the first level.
* dump of a childless root is not JSON; loading changes flags; orjson changes inf and refuses big ints.
* renderer: `enumerate` without filter fails; the root is filtered.
* math sets: half-open point interval, float cardinality, complement emptiness, `[1,5] == (2,5]`, `get_init_args(full=True)`, limit 0 in strings.
* filters: index filter tests truthiness, pattern/key/value filters match values of other types. Value models: see C42/C43 `_wrong`.
* links: conversion never pops its stack, so structure is right only if only last siblings have children; first child kept on reload; removed
  children stay; already linked children are shared with the source.
* `deep.reverse` stops half-way at a protected item; `deep.remove` with a repeated target raises half-way; `deep.unset_…` drops all flags of the
  selected items; `deep.set_…` with a filter visits the children even if the start item does not match.
* `extend`, `extendleft`, the constructor: a Python list among the items is taken for constructor arguments, never for a value.
* `copy()` shares instances of user classes although documented as copied.
* `repr` of items deeper than a fifth of the recursion limit hides the children (`subtree=[ ... ]`, glued to `flags=`); pickling pushes flags down.
* `t - u`: positions are deleted in the reversed order of `u`, not from the end (wrong items vanish, or IndexError); keys only `u` has raise; a recursive
  difference is put back without its tag, which shifts its family and leaves an empty family; a protected `t` cannot be subtracted from.
* dot renderer: TypeError when `tag_idx` is a bare number and for link roots with a value; quotation marks in labels are not escaped.
* coupled objects: an object that counts as false, and objects further below, are lost when a link is loaded again; `never coupled` differs from `coupled with None` in equal(check_coupled=True) (C80_*_wrong).
* load_links(delete_invalid_items=True): the sibling behind a removed link root is skipped (the deep iterator runs over the list the item is taken from); a broken link root in a source is removed there and the call fails half way (C76_delete_*_wrong).
* link targets and files: searching shortens the stored path, `is_file_updated` answers the opposite (C76_*_wrong); the dump of a loaded link
  stores every second linked child in full, so a later load shows stale copies as own children (C33_linked_stored_wrong).
* copies of link roots made while loading are never marked as loaded: a later `load_links()` on the tree loads them again, delivers True and turns their first linked child into a cover (C84_copies_wrong).
* `load_links()` on `D` in `R(S(c(P)), D(Q))`, `P` and `Q` leading to `S`, never comes back: each round copies `c` with the link root `P` below the item that the iterator comes to next (C76_endless_wrong).
* (not modelled) numpy branches use `any` instead of `all`; `getattr(self,'__renderer')` never finds the mangled
  name; `len(mset)` always raises TypeError; get.by_tag/by_tags/list deep path call a missing `_contains_fam`; a dump text without HASH is not checked.

## Trusted base

* Lean 4.33 kernel. No axioms of our own. The theorems depend on at most `propext`, `Classical.choice`, `Quot.sound`; AXIOMS.md lists
  them theorem by theorem (output of `#print axioms`). `decide +kernel` is evaluated by the kernel itself.
* The claim that the model follows the Python text: every definition cites the file and lines it models and says where it simplifies.
* Assumed of Python: list, dict (insertion ordered), deque, exceptions, generator semantics, stable `sorted`; `==`/`hash` on values as
  given by `Base`/`Model`; recursion limit and memory are unbounded.
* Parameters (theorems hold for every choice): the hash function of the dump, `fnmatch`, `str`/`repr` of values, user predicates, user
  model objects, sort keys.

Not modelled: the real file system and gzip (a map of texts and a pair of functions, C75), the pickle byte format, real hash functions, float rounding, numpy branches, `blist` (not installed:
`BLIST_SWITCH = -1`), threads and concurrent modification during iteration, call histories that contain make_local or a load_links over existing children (both are modelled as single calls: C73, C74).

## Testing of the theorems

`seeded/LOG.jsonl`: for every seeded wrong program the edited definition, the edit, the claim it breaks, the theorems that failed and the
theorems that were tightened afterwards. The mutants are run in a scratch copy: all modules that depend on the edited one are elaborated
again, failing proofs are recorded, and a property theorem counts as failed if it or a lemma it uses no longer checks.
