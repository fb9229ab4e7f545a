{"id": "C01", "title": "Family view agrees with the item order", "statement": "After any history of mutating calls, for every item t and every tag g, t[g] (and t[(g,i)]) delivers exactly the children of t carrying tag g, in the order in which iterating t delivers them; tags without children are not found.", "quantifier": "all histories of append/appendleft/insert/extend/extendleft/del/pop/remove/move/rename/reverse/rotate/setitem/set-value/flag calls on any set of items", "why_tests_cant": "a unit test runs finitely many histories of bounded length; the claim is about every reachable state", "anchors": ["src/itertree/itree_main.py:append,appendleft,insert,extend,extendleft,__delitem__,move,rename,reverse,rotate,__setitem__", "src/itertree/itree_private.py:_iter_extend,_append_item,_append_item_left,_get_family_insertion_idx"]}
{"id": "C02", "title": "Parent and child agree", "statement": "After any history, c is delivered by iterating p exactly when c.parent is p; iteration delivers no item twice, and no item is a child of two parents.", "quantifier": "all histories of mutating calls, all pairs of items", "why_tests_cant": "a unit test runs finitely many histories of bounded length; the claim is about every reachable state", "anchors": ["src/itertree/itree_main.py:parent,append,insert,extendleft,__delitem__,clear,sort,__setitem__", "src/itertree/itree_private.py:_append_item,_iter_extend"]}
{"id": "C03", "title": "append adds exactly one last child", "statement": "t.append(x) with x parentless on an unprotected t makes x the last child, keeps every other child and its order, returns x, and changes no other item; if x has a parent RecursionError is raised and nothing changes; a non-iTree argument is wrapped in a fresh NoTag item holding it as value.", "quantifier": "all trees, all items", "why_tests_cant": "the input space (tree shapes, tags, values) is unbounded; tests sample it", "anchors": ["src/itertree/itree_main.py:append,__iadd__"]}
{"id": "C04", "title": "appendleft adds exactly one first child", "statement": "t.appendleft(x) makes x child 0 and shifts the others by one; nothing else changes; the error cases are those of append.", "quantifier": "all trees, all items", "why_tests_cant": "the input space (tree shapes, tags, values) is unbounded; tests sample it", "anchors": ["src/itertree/itree_main.py:appendleft", "src/itertree/itree_private.py:_append_item_left"]}
{"id": "C05", "title": "insert works like list.insert", "statement": "t.insert(k, x) leaves the children list equal to what list.insert(k, x) would give, for every integer k (negative, zero, beyond the end) and keeps the family order aligned.", "quantifier": "all trees, all integers k, all items x", "why_tests_cant": "the input space (tree shapes, tags, values) is unbounded; tests sample it", "anchors": ["src/itertree/itree_main.py:insert", "src/itertree/itree_private.py:_get_family_insertion_idx"]}
{"id": "C06", "title": "The family position search is exact", "statement": "The interval search used when an item is placed in the middle returns the number of family members lying before the absolute position, for every family size and every position.", "quantifier": "all family lists and positions", "why_tests_cant": "the input space (tree shapes, tags, values) is unbounded; tests sample it", "anchors": ["src/itertree/itree_private.py:_get_family_insertion_idx"]}
{"id": "C07", "title": "extend appends in order", "statement": "t.extend(items) leaves the children list equal to the old children followed by the given items in order, where items that already have a parent are replaced by fresh copies and non-iTree objects by fresh NoTag items; originals keep their parent.", "quantifier": "all trees and all finite iterables", "why_tests_cant": "the input space (tree shapes, tags, values) is unbounded; tests sample it", "anchors": ["src/itertree/itree_main.py:extend", "src/itertree/itree_private.py:_iter_extend"]}
{"id": "C08", "title": "extendleft prepends in order", "statement": "t.extendleft(items) leaves the children list equal to the given items (in the given order) followed by the old children, which keep their identity.", "quantifier": "all trees and all finite iterables", "why_tests_cant": "the input space (tree shapes, tags, values) is unbounded; tests sample it", "anchors": ["src/itertree/itree_main.py:extendleft"]}
{"id": "C09", "title": "del t[i] / pop(i) removes exactly that child", "statement": "For -len(t) <= i < len(t), del t[i] (pop(i)) removes exactly the child at i, which becomes parentless and is returned; every other item keeps its parent and relative order; out of range i raises and changes nothing.", "quantifier": "all trees, all integers i, any cache state, any == on items", "why_tests_cant": "the input space (tree shapes, tags, values) is unbounded; tests sample it", "anchors": ["src/itertree/itree_main.py:__delitem__,pop,remove"]}
{"id": "C10", "title": "t[i] = x replaces exactly that child", "statement": "Setting an item by absolute index puts x at position i, detaches the old child, keeps all other children and keeps all families aligned.", "quantifier": "all trees, all i in range, all new items", "why_tests_cant": "the input space (tree shapes, tags, values) is unbounded; tests sample it", "anchors": ["src/itertree/itree_main.py:__setitem__"]}
{"id": "C11", "title": "move repositions an item", "statement": "x.move(k) takes x out of its position and puts it before the item that was at k; all other items keep their relative order; x.move() makes it last.", "quantifier": "all trees, all positions", "why_tests_cant": "the input space (tree shapes, tags, values) is unbounded; tests sample it", "anchors": ["src/itertree/itree_main.py:move"]}
{"id": "C12", "title": "rename changes only the tag", "statement": "x.rename(g) changes the tag of x to g, keeps the item order of the parent, and afterwards families are aligned with the new tags.", "quantifier": "all trees, all items, all tags", "why_tests_cant": "the input space (tree shapes, tags, values) is unbounded; tests sample it", "anchors": ["src/itertree/itree_main.py:rename"]}
{"id": "C13", "title": "reverse reverses", "statement": "t.reverse() reverses the item order and every family order; applied twice it is the identity.", "quantifier": "all trees", "why_tests_cant": "the input space (tree shapes, tags, values) is unbounded; tests sample it", "anchors": ["src/itertree/itree_main.py:reverse"]}
{"id": "C14", "title": "rotate rotates", "statement": "t.rotate(n) moves the last n (n>0) or first -n (n<0) children to the other end, loses no child; rotate(n) then rotate(-n) is the identity.", "quantifier": "all trees, all integers n", "why_tests_cant": "the input space (tree shapes, tags, values) is unbounded; tests sample it", "anchors": ["src/itertree/itree_main.py:rotate"]}
{"id": "C15", "title": "sort is a stable sort that keeps the items", "statement": "t.sort(key) reorders the children so that keys are non-decreasing, is stable, keeps exactly the same item objects and detaches nothing.", "quantifier": "all trees, all key functions", "why_tests_cant": "the input space (tree shapes, tags, values) is unbounded; tests sample it", "anchors": ["src/itertree/itree_main.py:sort"]}
{"id": "C16", "title": "clear empties the item", "statement": "t.clear() leaves t without children and without value (unless keep_value), all former children are parentless, flags except LOAD_LINKS are unchanged, and no query finds former children. With local_only, on a link root, exactly the local children go.", "quantifier": "all trees", "why_tests_cant": "the input space (tree shapes, tags, values) is unbounded; tests sample it", "anchors": ["src/itertree/itree_main.py:clear", "src/itertree/itree_private.py:_unset_flags"]}
{"id": "C17", "title": "idx is the true position whatever the caches hold", "statement": "For every child c of p in any reachable state, c.idx is the unique i with p[i] is c, and reading it changes no observable state; for a root it is None.", "quantifier": "all trees, all contents of the cached indexes", "why_tests_cant": "a unit test runs finitely many histories of bounded length; the claim is about every reachable state", "anchors": ["src/itertree/itree_main.py:idx"]}
{"id": "C18", "title": "tag_idx is the true family position whatever the caches hold", "statement": "For every child c of p in any reachable state c.tag_idx is (c.tag, i) where i is the position of c among the children with its tag, and p[c.tag_idx] is c.", "quantifier": "all trees, all contents of the cached indexes", "why_tests_cant": "a unit test runs finitely many histories of bounded length; the claim is about every reachable state", "anchors": ["src/itertree/itree_main.py:tag_idx"]}
{"id": "C19", "title": "Paths lead back to the item", "statement": "For every item x, x.root.get.by_idx(*x.idx_path) is x and the path length is x.level; the same holds with tag_idx_path and get.by_tag_idx.", "quantifier": "all trees, all items, all depths", "why_tests_cant": "the input space (tree shapes, tags, values) is unbounded; tests sample it", "anchors": ["src/itertree/itree_main.py:idx_path,tag_idx_path,root,level,ancestors", "src/itertree/itree_getitem.py:by_idx,by_tag_idx"]}
{"id": "C20", "title": "Lookup by index, slice and key follows Python lists", "statement": "t[i], t[a:b:c], t[(g,i)] and t[(g,a:b:c)] select exactly what list indexing selects in the children list resp. the list of children with tag g; misses raise IndexError/KeyError and never deliver a wrong item.", "quantifier": "all trees, all targets", "why_tests_cant": "the input space (tree shapes, tags, values) is unbounded; tests sample it", "anchors": ["src/itertree/itree_main.py:__getitem__"]}
{"id": "C21", "title": "Structure protection is effective", "statement": "If an item is tree-protected (read-only, linked or placeholder, and not a link root) every structure changing call on it (append, appendleft, insert, extend, extendleft, del, pop, setitem, reverse, rotate, sort, clear, and move/rename of a child) raises PermissionError and changes nothing; and whatever is called on any item, in any order, a protected item keeps its children, their order and their families as long as nobody takes flags away from it; a subtree whose items are all protected keeps its whole structure and the tags below its root.", "quantifier": "all states, all calls, all histories", "why_tests_cant": "a unit test runs finitely many histories of bounded length; the claim is about every reachable state", "anchors": ["src/itertree/itree_main.py:append,appendleft,insert,extend,extendleft,__setitem__,__delitem__,move,rename,reverse,rotate,sort,clear"]}
{"id": "C22", "title": "Value protection is effective", "statement": "If is_value_read_only is True no value changing call (set_value, set_key_value, del_value, del_key_value) changes the value; each raises PermissionError; through every history of calls on any items the value stays as it is until an unset call reaches the item or it is cleared.", "quantifier": "all states, all calls", "why_tests_cant": "a unit test runs finitely many histories of bounded length; the claim is about every reachable state", "anchors": ["src/itertree/itree_main.py:set_value,set_key_value,del_value,del_key_value,is_value_read_only"]}
{"id": "C23", "title": "set_tree_read_only is deep and unset is exact", "statement": "set_tree_read_only sets the protection on the item and all its descendants and nothing else; unset_tree_read_only / unset_value_read_only clear exactly the named flag; an item cannot be unprotected while its parent is protected.", "quantifier": "all trees, all flag states", "why_tests_cant": "the input space (tree shapes, tags, values) is unbounded; tests sample it", "anchors": ["src/itertree/itree_main.py:set_tree_read_only,unset_tree_read_only,set_value_read_only,unset_value_read_only", "src/itertree/itree_private.py:_set_flags,_unset_flags"]}
{"id": "C24", "title": "Failed calls change nothing", "statement": "If a mutating call raises, children, parents, families, values and flags of all items are as before the call.", "quantifier": "all states, all calls that raise", "why_tests_cant": "a unit test runs finitely many histories of bounded length; the claim is about every reachable state", "anchors": ["src/itertree/itree_main.py:append,insert,extendleft,rotate,__setitem__,__delitem__"]}
{"id": "C25", "title": "No cycles", "statement": "No history of calls makes an item its own ancestor; so parent chains end at a root and deep iteration terminates.", "quantifier": "all histories", "why_tests_cant": "a unit test runs finitely many histories of bounded length; the claim is about every reachable state", "anchors": ["src/itertree/itree_main.py:append,insert,extend", "src/itertree/itree_private.py:_append_item"]}
{"id": "C26", "title": "Down iteration is pre-order", "statement": "list(t.deep) lists every descendant exactly once, each parent before its children and siblings in item order (pre-order), independent of depth.", "quantifier": "all trees (all shapes and depths)", "why_tests_cant": "the input space (tree shapes, tags, values) is unbounded; tests sample it", "anchors": ["src/itertree/itree_indepth.py:__iter__", "src/itertree/itree_indepth_helpers/itree_indepth_iter.py"]}
{"id": "C27", "title": "Up/reverse iterations are the named orders", "statement": "deep.iter with UP delivers post-order, with REVERSE the mirrored pre-order, with UP|REVERSE the mirrored post-order; SELF adds exactly the item itself; all four deliver the same multiset.", "quantifier": "all trees, all option combinations", "why_tests_cant": "the input space (tree shapes, tags, values) is unbounded; tests sample it", "anchors": ["src/itertree/itree_indepth.py:iter", "src/itertree/itree_indepth_helpers/itree_indepth_iter.py"]}
{"id": "C28", "title": "Filtered deep iteration is hierarchical unless FILTER_ANY", "statement": "With a filter, deep.iter delivers exactly the descendants for which they and all ancestors below the start match (hierarchical), in the order of the unfiltered iteration; with FILTER_ANY exactly the matching descendants.", "quantifier": "all trees, all predicates", "why_tests_cant": "the input space (tree shapes, tags, values) is unbounded; tests sample it", "anchors": ["src/itertree/itree_indepth.py:iter", "src/itertree/itree_indepth_helpers/itree_indepth_iter.py"]}
{"id": "C29", "title": "Path iterators agree with the items", "statement": "deep.idx_paths / deep.tag_idx_paths deliver for every item of the corresponding iteration exactly its index path / tag-index path.", "quantifier": "all trees", "why_tests_cant": "the input space (tree shapes, tags, values) is unbounded; tests sample it", "anchors": ["src/itertree/itree_indepth.py:idx_paths,tag_idx_paths", "src/itertree/itree_indepth_helpers/itree_indepth_iter.py"]}
{"id": "C30", "title": "Deep length and depth", "statement": "len(t.deep) is the number of descendants; t.max_depth is the largest level difference of a descendant; deep.siblings(n) are exactly the descendants at level n in order.", "quantifier": "all trees, all levels", "why_tests_cant": "the input space (tree shapes, tags, values) is unbounded; tests sample it", "anchors": ["src/itertree/itree_main.py:max_depth,level", "src/itertree/itree_indepth.py:__len__,siblings", "src/itertree/itree_indepth_helpers/itree_indepth_siblings.py", "src/itertree/itree_indepth_helpers/itree_indepth_levels.py"]}
{"id": "C31", "title": "copy is an equal, independent tree", "statement": "t.copy()/deepcopy() has the same shape, tags, values and flags as t, all its items are fresh, its root is parentless, the original is unchanged and later changes to one do not affect the other.", "quantifier": "all trees", "why_tests_cant": "the input space (tree shapes, tags, values) is unbounded; tests sample it", "anchors": ["src/itertree/itree_main.py:copy,deepcopy,copy_keep_value,__copy__", "src/itertree/itree_private.py:_iter_copy,_get_copy_args"]}
{"id": "C32", "title": "== is an equivalence on content", "statement": "t == u holds exactly when tags, values and the whole structure below coincide; it is reflexive, symmetric and transitive and equal items have equal hashes.", "quantifier": "all pairs/triples of trees", "why_tests_cant": "the input space (tree shapes, tags, values) is unbounded; tests sample it", "anchors": ["src/itertree/itree_main.py:__eq__,__hash__,equal", "src/itertree/itree_private.py:_value_equal"]}
{"id": "C33", "title": "dump/load round trip", "statement": "Loading a dumped tree delivers a tree with the same shape, tags, values, links and flags.", "quantifier": "all trees over serializable tags/values", "why_tests_cant": "the input space (tree shapes, tags, values) is unbounded; tests sample it", "anchors": ["src/itertree/itree_serializer/itree_json_serialize.py", "src/itertree/itree_main.py:dumps,loads"]}
{"id": "C34", "title": "JSON value conversion round trip", "statement": "Converting any supported value (None, bool, int, float, str, bytes, list, tuple, set, deque, dict, OrderedDict and nestings, constants, objects with get_init_args) to its JSON form and back delivers the same value and type.", "quantifier": "all nested values", "why_tests_cant": "the input space (tree shapes, tags, values) is unbounded; tests sample it", "anchors": ["src/itertree/itree_serializer/itree_json_converter.py"]}
{"id": "C35", "title": "Tampered or foreign data is rejected on load", "statement": "A dump whose data section differs from the one hashed is rejected when the hash check is on; wrong versions are rejected.", "quantifier": "all file contents", "why_tests_cant": "the input space (tree shapes, tags, values) is unbounded; tests sample it", "anchors": ["src/itertree/itree_serializer/itree_json_serialize.py"]}
{"id": "C36", "title": "render prints every item once, indented by level", "statement": "render produces one line per (matching) item in pre-order with an indentation that is a function of the level only.", "quantifier": "all trees", "why_tests_cant": "the input space (tree shapes, tags, values) is unbounded; tests sample it", "anchors": ["src/itertree/itree_serializer/itree_renderer.py"]}
{"id": "C37", "title": "Interval membership", "statement": "x in mSetInterval(a,b) holds exactly when x lies between the limits, respecting open/closed and infinite limits and the integer-only option; swapped limits are normalised.", "quantifier": "all numbers x, all limits", "why_tests_cant": "the input space (tree shapes, tags, values) is unbounded; tests sample it", "anchors": ["src/itertree/itree_mathsets.py:mSetInterval"]}
{"id": "C38", "title": "Complement negates membership", "statement": "For every interval, roster and combination s, x in the complement of s exactly when not x in s; complementing twice is the identity.", "quantifier": "all sets and all elements", "why_tests_cant": "the input space (tree shapes, tags, values) is unbounded; tests sample it", "anchors": ["src/itertree/itree_mathsets.py:_mSetBase,mSetInterval,mSetRoster,mSetCombine"]}
{"id": "C39", "title": "Union and intersection", "statement": "x in mSetCombine(a,b,..) is the disjunction (union) resp. conjunction (intersection) of the memberships; De Morgan holds.", "quantifier": "all finite combinations, all elements", "why_tests_cant": "the input space (tree shapes, tags, values) is unbounded; tests sample it", "anchors": ["src/itertree/itree_mathsets.py:mSetCombine"]}
{"id": "C40", "title": "Interval iteration and cardinality", "statement": "For a bounded integer interval, iterating delivers exactly its members in increasing order and cardinality equals the number of members; emptiness is reported exactly when there are no members.", "quantifier": "all integer limits", "why_tests_cant": "the input space (tree shapes, tags, values) is unbounded; tests sample it", "anchors": ["src/itertree/itree_mathsets.py:mSetInterval.cardinality,__iter__,is_empty_set"]}
{"id": "C41", "title": "Filters match exactly what they describe, invert is negation", "statement": "Every filter class answers with a bool, True exactly for the items its description names (flags, tag, value, dict value, list element, key, index, pattern, interval), and the same filter with invert=True gives exactly the negated answer; mapping a filter over items gives one answer per item in order.", "quantifier": "all filter classes, all arguments, all items", "why_tests_cant": "the input space (tree shapes, tags, values) is unbounded; tests sample it", "anchors": ["src/itertree/itree_filters.py"]}
{"id": "C42", "title": "Value models only store accepted values", "statement": "After any history of set/clear on a value model the stored value is NoValue or was accepted by the model (cast, contained, shape), and a rejected set leaves the stored value unchanged and raises.", "quantifier": "all histories, all values", "why_tests_cant": "a unit test runs finitely many histories of bounded length; the claim is about every reachable state", "anchors": ["src/itertree/itree_data.py:iTValueModel"]}
{"id": "C43", "title": "Shape check is the documented dimension limit", "statement": "The shape check accepts a value exactly when every dimension is within the documented limit (ints bound, INF free, Any optional).", "quantifier": "all value shapes, all model shapes", "why_tests_cant": "the input space (tree shapes, tags, values) is unbounded; tests sample it", "anchors": ["src/itertree/itree_data.py:_check_shape,_get_max_shape"]}
{"id": "C44", "title": "Enumerations of children agree", "statement": "keys(), items(), values(), tags(), iter_families() and len(t) describe the same children: keys are unique, t[key] is the item, families are listed by first (last) member position.", "quantifier": "all trees", "why_tests_cant": "the input space (tree shapes, tags, values) is unbounded; tests sample it", "anchors": ["src/itertree/itree_main.py:keys,values,items,iter_families,tags,tag_number"]}
{"id": "C45", "title": "Membership queries", "statement": "x in t holds iff some child equals x; t.is_in(x) iff x is a child object; t.is_tag_in(g) iff some child has tag g; count and index agree with the list of children.", "quantifier": "all trees and arguments", "why_tests_cant": "the input space (tree shapes, tags, values) is unbounded; tests sample it", "anchors": ["src/itertree/itree_main.py:__contains__,is_in,is_tag_in,count,index", "src/itertree/itree_indepth.py:is_in,is_tag_in"]}
{"id": "C46", "title": "Linked items mirror their source and are protected", "statement": "After load_links the linked part of a link root has the keys, tags, values and structure of the source; linked items are protected; local items survive reloading.", "quantifier": "all trees, all links", "why_tests_cant": "the input space (tree shapes, tags, values) is unbounded; tests sample it", "anchors": ["src/itertree/itree_main.py:load_links,make_local", "src/itertree/itree_private.py:_convert_to_linked_item,_iter_locals_add_placeholders"]}
{"id": "C47", "title": "Item arithmetic", "statement": "t+u has the children of t then of u (copied); t*n has n copies; operands are unchanged.", "quantifier": "all trees, all n", "why_tests_cant": "the input space (tree shapes, tags, values) is unbounded; tests sample it", "anchors": ["src/itertree/itree_main.py:__add__,__mul__,__rmul__"]}
{"id": "C48", "title": "Multi-target get", "statement": "t.get(*path) descends level by level and delivers the concatenation of the matches in order; get.single raises unless there is exactly one match.", "quantifier": "all trees, all target paths", "why_tests_cant": "the input space (tree shapes, tags, values) is unbounded; tests sample it", "anchors": ["src/itertree/itree_getitem.py"]}
{"id": "C49", "title": "Trees do not influence each other", "statement": "A call changes nothing in a tree whose items it is neither made on nor given as argument, whatever the call and its outcome; so a whole history of calls on other trees (copies included) leaves a tree exactly as it was.", "quantifier": "all trees, all histories of calls on items of other trees", "why_tests_cant": "the input space (tree shapes, tags, values) is unbounded; tests sample it", "anchors": ["src/itertree/itree_main.py:append,insert,extend,__delitem__,__setitem__,move,rename,reverse,rotate,sort,clear,copy", "src/itertree/itree_private.py:_iter_copy,_iter_extend"]}
{"id": "C50", "title": "The constructor builds exactly the given children", "statement": "iTree(tag, value, subtree, flags) never fails and gives a parentless item with these properties whose children correspond one to one, in order, to the given objects: plain values become leaves, parentless items are taken over, items with parent (or given twice) are copied; protection flags reach every level; no other item changes.", "quantifier": "all histories before, all argument lists, all flags", "why_tests_cant": "the input space (tree shapes, tags, values) is unbounded; tests sample it", "anchors": ["src/itertree/itree_main.py:__init__", "src/itertree/itree_private.py:_iter_extend,_set_flags_deep"]}
{"id": "C51", "title": "Interval equality and construction arguments", "statement": "Rebuilding an interval from get_init_args() gives an equal interval; two intervals that compare equal have the same members.", "quantifier": "all intervals, all asked numbers", "why_tests_cant": "the input space (tree shapes, tags, values) is unbounded; tests sample it", "anchors": ["src/itertree/itree_mathsets.py"]}
{"id": "C52", "title": "Interval string form round trip", "statement": "The string form (math_repr) of an interval is accepted by the constructor and gives exactly that interval again.", "quantifier": "all intervals with integer, infinite or variable limits, open or closed, int-only or not, complement or not", "why_tests_cant": "the input space (tree shapes, tags, values) is unbounded; tests sample it", "anchors": ["src/itertree/itree_mathsets.py"]}
{"id": "C53", "title": "What is stored is what is read", "statement": "set_value/set_key_value/del_value/del_key_value change exactly the addressed part of the value of exactly that item and return what was there before; get_value/get_key_value then give the new content (through a value model: its content); all other keys or list positions read as before.", "quantifier": "all items, all stored values, all keys and indexes", "why_tests_cant": "the input space (tree shapes, tags, values) is unbounded; tests sample it", "anchors": ["src/itertree/itree_main.py:set_value,set_key_value,get_value,get_key_value,del_value,del_key_value"]}
{"id": "C54", "title": "In-depth reverse, sort and remove", "statement": "deep.reverse() turns a tree into its mirror image, deep.sort() sorts the children of every item stably, deep.remove(*targets) takes exactly the selected items out; nothing else changes and a protected item never loses its order.", "quantifier": "all histories, all trees of any depth, all keys and targets", "why_tests_cant": "the input space (tree shapes, tags, values) is unbounded; tests sample it", "anchors": ["src/itertree/itree_indepth.py:reverse,sort,remove"]}
{"id": "C55", "title": "In-depth flag calls", "statement": "deep.set_value_read_only / unset_value_read_only / unset_tree_read_only change exactly that flag on exactly the selected items (all, hierarchically filtered, filtered) and are refused below a protected parent.", "quantifier": "all trees, all filters", "why_tests_cant": "the input space (tree shapes, tags, values) is unbounded; tests sample it", "anchors": ["src/itertree/itree_indepth.py:set_value_read_only,unset_value_read_only,unset_tree_read_only"]}
{"id": "C56", "title": "Copies and value objects", "statement": "After c = t.deepcopy() no in-place change of value objects reachable from c is ever visible in t or in anything that existed before, and vice versa, and all values look the same; c = t.copy() gives list, dict and model values new top-level objects with the same elements; c = t.copy_keep_value() shares every value object.", "quantifier": "all trees, all value object graphs (shared, nested, cyclic), all later programs working on the value objects", "why_tests_cant": "a unit test runs finitely many histories of bounded length; the claim is about every reachable state", "anchors": ["src/itertree/itree_main.py:copy,deepcopy,copy_keep_value", "src/itertree/itree_private.py:_get_copy_args,_get_args_skip_subtree,_get_deepcopy_args,_iter_copy"]}
{"id": "C57", "title": "repr and pickle rebuild the tree", "statement": "eval(repr(t)) and unpickling a pickled t build a new parentless tree of new items with the same tags, values, flags, order and nesting; nothing existing changes.", "quantifier": "all trees whose tags and values have an evaluable repr (repr), all trees (pickle), all states in which the text is evaluated", "why_tests_cant": "the input space (tree shapes, tags, values) is unbounded; tests sample it", "anchors": ["src/itertree/itree_main.py:__repr__,__reduce__,get_init_args"]}
{"id": "C58", "title": "Size comparisons and counters", "statement": "t<u, t<=u, t>u, t>=u order items by their number of children and never contradict ==; filtered_len counts the matching children; tag_number is the number of different tags among the children.", "quantifier": "all trees, all filters, all histories", "why_tests_cant": "the input space (tree shapes, tags, values) is unbounded; tests sample it", "anchors": ["src/itertree/itree_main.py:__lt__,__le__,__gt__,__ge__,filtered_len,tag_number"]}
{"id": "C59", "title": "equal with options", "statement": "t.equal(u) is the same as t==u; t.equal(u,check_flags=True) holds exactly when in addition the flags agree on all pairs of items met in parallel.", "quantifier": "all pairs of trees", "why_tests_cant": "the input space (tree shapes, tags, values) is unbounded; tests sample it", "anchors": ["src/itertree/itree_main.py:equal"]}
{"id": "C60", "title": "force_cache_update makes positions directly readable", "statement": "x.force_cache_update() changes nothing observable, and afterwards idx and tag_idx of x and all its siblings are correct and read without any search.", "quantifier": "all trees, all outdated caches, all siblings", "why_tests_cant": "the input space (tree shapes, tags, values) is unbounded; tests sample it", "anchors": ["src/itertree/itree_main.py:force_cache_update,idx,tag_idx"]}
{"id": "C61", "title": "Iteration level by level", "statement": "deep.levels(slice(s,e,st)) delivers the items of the levels s, s+st, ... before e, one level after the other, each level as deep.siblings delivers it (reverse and SELF included), no item twice; with a list of levels the given levels in that order.", "quantifier": "all trees, all starts, ends, steps, all options", "why_tests_cant": "the input space (tree shapes, tags, values) is unbounded; tests sample it", "anchors": ["src/itertree/itree_indepth.py:levels,siblings", "src/itertree/itree_indepth_helpers/itree_indepth_levels.py:_levels_via_siblings_iterable"]}
{"id": "C62", "title": "Bottom-up level queries", "statement": "negative_levels, equal_negative_level and in_negative_level answer from the distances between the item and the leaves below it.", "quantifier": "all trees, all distances", "why_tests_cant": "the input space (tree shapes, tags, values) is unbounded; tests sample it", "anchors": ["src/itertree/itree_main.py:negative_levels,equal_negative_level,in_negative_level"]}
{"id": "C63", "title": "Older data models only hold validated values", "statement": "After any history of set/check/clear on an iTDataModel the stored value is NoValue or was delivered by the validator; a rejected value raises and changes nothing; the formatted text is the text of the value stored now; check only answers.", "quantifier": "all histories, all validators and formatters", "why_tests_cant": "a unit test runs finitely many histories of bounded length; the claim is about every reachable state", "anchors": ["src/itertree/itree_data.py:iTDataModel"]}
{"id": "C64", "title": "iTData stores and guards", "statement": "d[k]=v is what d[k] delivers, all other keys and the order stay; del/pop remove exactly one key; every key is there once; clear(values_only=True) keeps and empties exactly the models; a model stored under a key checks what is stored and stays.", "quantifier": "all histories, all keys and values, all model objects", "why_tests_cant": "a unit test runs finitely many histories of bounded length; the claim is about every reachable state", "anchors": ["src/itertree/itree_data.py:iTData"]}
{"id": "C65", "title": "iTData.update is all-or-nothing", "statement": "If one item of an update is invalid nothing is changed at all; otherwise every given key has the given value, through its model where there is one, and other keys are as before.", "quantifier": "all dictionaries, all arguments, all validators", "why_tests_cant": "the input space (tree shapes, tags, values) is unbounded; tests sample it", "anchors": ["src/itertree/itree_data.py:iTData.update"]}
{"id": "C66", "title": "iTDataReadOnly never changes", "statement": "No sequence of calls on an iTDataReadOnly object changes its items; each attempt raises PermissionError.", "quantifier": "all histories of calls", "why_tests_cant": "a unit test runs finitely many histories of bounded length; the claim is about every reachable state", "anchors": ["src/itertree/itree_data.py:iTDataReadOnly"]}
{"id": "C67", "title": "iter_in and filter agree with membership", "statement": "s.iter_in(elements) gives for each element, in order, what (element in s) gives; s.filter(elements) delivers exactly the elements that are in s, in order; a question that raises is raised in both.", "quantifier": "all sets (intervals, rosters, nested combinations), all finite iterables, all variable dictionaries", "why_tests_cant": "the input space (tree shapes, tags, values) is unbounded; tests sample it", "anchors": ["src/itertree/itree_mathsets.py:iter_in,filter"]}
{"id": "C68", "title": "Set-builder definitions mean what they say", "statement": "mSetInterval(\"{x| statements}\") accepts every documented definition (comparisons with numbers or variables, equality, inequality, numerical domains, one or two statements, complement signs) and a number is a member exactly when it satisfies all statements (exactly when not, for a complement).", "quantifier": "all limits, all documented statements and combinations, all asked numbers and variable values", "why_tests_cant": "the input space (tree shapes, tags, values) is unbounded; tests sample it", "anchors": ["src/itertree/itree_mathsets.py:_parse_builder_definition_str,_replace_lower_limit,_replace_upper_limit,_get_set_data,__init__"]}
{"id": "C69", "title": "Subtraction of items", "statement": "t-u delivers a new parentless tree: a copy of t without the items that u has under the same key and that are equal, whatever the order of the children; different items under the same key are subtracted recursively, keys only u has are ignored; t and u are not changed.", "quantifier": "all trees, all pairs of items", "why_tests_cant": "the input space (tree shapes, tags, values) is unbounded; tests sample it", "anchors": ["src/itertree/itree_main.py:__sub__"]}
{"id": "C70", "title": "The graph description is the tree", "statement": "iTreeRenderDot(t, filter) delivers one node statement with its own number for t and for every (hierarchically) matching item below, in pre-order, labelled with key, value or link in quotation marks, and exactly one edge statement per item below t, from its parent; nothing is changed and it never fails.", "quantifier": "all trees, all filters, all stored positions", "why_tests_cant": "the input space (tree shapes, tags, values) is unbounded; tests sample it", "anchors": ["src/itertree/itree_serializer/itree_render_dot.py:renders,_build_item,render_children"]}
{"id": "C71", "title": "Filtered dumps", "statement": "dumps(filter_method=f) followed by loads delivers a new tree with the root and exactly the items that pass f and whose ancestors below the root pass f, with their tags, values, order and nesting; refused items are not looked at; a filter that accepts everything changes nothing.", "quantifier": "all trees over serializable tags/values, all filters", "why_tests_cant": "the input space (tree shapes, tags, values) is unbounded; tests sample it", "anchors": ["src/itertree/itree_serializer/itree_json_serialize.py:dumps", "src/itertree/itree_private.py:_iter_deep_locals_add_placeholders_filtered"]}
{"id": "C72", "title": "Old files are converted", "statement": "Converter_1_1_1_to_2_0_0 turns every file of version 1.1.1 into a new tree with the tags, values, order, nesting and protection it describes; other versions and (when checked) data that does not fit the hash are refused; nothing existing changes.", "quantifier": "all documents of the old format (trees, nested values, field orders), all headers", "why_tests_cant": "the input space (tree shapes, tags, values) is unbounded; tests sample it", "anchors": ["src/itertree/itree_serializer/itree_json_converter.py:Converter_1_1_1_to_2_0_0_Cls.convert,create_itree_from_raw"]}
{"id": "C73", "title": "Linked items can be made local and taken back", "statement": "x.make_local() on a linked child of a link root puts a new item that is not linked, with the tag, value and (if wanted) subtree of x, in the place of x and changes nothing else; anything else is refused without a change; deleting the local item brings x back to its place.", "quantifier": "all trees with link roots, all linked items, both subtree options", "why_tests_cant": "the input space (tree shapes, tags, values) is unbounded; tests sample it", "anchors": ["src/itertree/itree_main.py:make_local,__delitem__", "src/itertree/itree_private.py:_convert_to_local_item"]}
{"id": "C74", "title": "Loading a link builds the mirror and keeps the locals", "statement": "load_links() on a link root gives it one new linked item per child of the source, in the order of the source, with the tags, values and structure below; local children survive, one with a key of the source takes the place of that item and covers it; the source and all other items are unchanged; a link already loaded whose source kept its keys is not loaded again; a missing source or a circular link raises.", "quantifier": "all trees, all link roots with any children, all sources", "why_tests_cant": "the input space (tree shapes, tags, values) is unbounded; tests sample it", "anchors": ["src/itertree/itree_main.py:load_links", "src/itertree/itree_private.py:_convert_to_linked_item,_iter_locals_add_placeholders"]}
{"id": "C75", "title": "Files hold the tree and are not overwritten unasked", "statement": "dump(file) writes exactly that file, and load(file) later delivers a new tree with the tags, values, order, structure and links of the dumped one, packed or not; an existing file is not overwritten unless allowed, a failed dump leaves every file as it was, a missing file raises.", "quantifier": "all trees over serializable tags/values, all file systems, all options, any history between dump and load", "why_tests_cant": "the input space (tree shapes, tags, values) is unbounded; tests sample it", "anchors": ["src/itertree/itree_serializer/itree_json_serialize.py:dump,load", "src/itertree/itree_main.py:dump,load"]}
{"id": "C76", "title": "Links find their target, load_links() loads all links below", "statement": "A link finds exactly the item its path leads to from the root of its own tree (or of the loaded file), the idx_path and tag_idx_path of an item lead back to it; load_links() on any item loads every link root below it with mirrors of its target and answers whether there was any; without links nothing happens; with delete_invalid_items=True the link roots that lead nowhere are removed and the others loaded; a file link is loaded again exactly when the file has changed.", "quantifier": "all trees, all paths, all positions of link roots, all file systems", "why_tests_cant": "the input space (tree shapes, tags, values) is unbounded; tests sample it", "anchors": ["src/itertree/itree_main.py:get_target_tree,load_links", "src/itertree/itree_helpers.py:iTLink"]}
{"id": "C77", "title": "Items and options describe themselves", "statement": "flags_repr() names exactly the flags that are set; link_root is the highest linked item above a linked one; is_link_loaded tells whether the own link, or some link below, is loaded; str(x) is repr(x) without inner siblings; the option texts name exactly the options; the list helpers (last position, accumulation, emptiness, result list) give what they say and leave their argument as it was.", "quantifier": "all flags, all trees with links, all option numbers, all lists", "why_tests_cant": "the input space (tree shapes, tags, values) is unbounded; tests sample it", "anchors": ["src/itertree/itree_main.py:flags_repr,link_root,is_link_loaded,__str__", "src/itertree/itree_helpers.py:ITER,rindex,accu_iterator,is_iterator_empty,getter_to_list"]}
{"id": "C78", "title": "The variables of a set", "statement": "s.vars names all variables the answers of a set depend on: variable dictionaries that agree on them get the same answer, a set without variables needs no dictionary, and with a value for each of them no question for a number is refused with TypeError; a variable limit without value is refused.", "quantifier": "all sets (intervals, rosters, nested combinations), all numbers, all variable dictionaries", "why_tests_cant": "the input space (tree shapes, tags, values) is unbounded; tests sample it", "anchors": ["src/itertree/itree_mathsets.py:vars,has_vars,__contains__"]}
{"id": "C79", "title": "Set items compare and hash by their values", "statement": "Items made of numbers are ordered like their numbers (<, <=, >, >= agree with each other), comparisons with a variable give no answer (None); == is an equivalence relation that fits the order, and equal items have equal hashes.", "quantifier": "all items, numbers, infinities and variables, all complement flags", "why_tests_cant": "the input space (tree shapes, tags, values) is unbounded; tests sample it", "anchors": ["src/itertree/itree_mathsets.py:mSetItem.__eq__", "src/itertree/itree_mathsets.py:mSetItem.__hash__", "src/itertree/itree_mathsets.py:mSetItem.__lt__"]}
{"id": "C80", "title": "Coupled objects stay with their item", "statement": "coupled_object is the object given last by set_coupled_object, None without; coupling is invisible for the tree and untouched by every call, protection and renaming; copies have none; equal(check_coupled=True) compares exactly the objects in addition; load_links() hands the objects of replaced linked items over to the items that replace them.", "quantifier": "all histories of calls and couplings, all trees with links, all objects", "why_tests_cant": "a unit test runs finitely many histories of bounded length; the claim is about every reachable state", "anchors": ["src/itertree/itree_main.py:coupled_object,set_coupled_object,equal,load_links"]}
{"id": "C81", "title": "Tag, value, flags and link of an item change only by calls on it", "statement": "Whatever is called on other items, in any order, failing or not: an item keeps its tag unless it is renamed itself; keeps its stored value (values that are not objects shared between items) unless a value call or clear is made on it; loses no flag unless an unset call reaches it or it is cleared; and no call makes an existing item a link root, or changes what it links to, except its own clear and load_links.", "quantifier": "all states, all histories of calls on any items", "why_tests_cant": "a unit test runs finitely many histories of bounded length; the claim is about every reachable state", "anchors": ["src/itertree/itree_main.py:rename,set_value,set_key_value,del_value,del_key_value,clear,set_tree_read_only", "src/itertree/itree_private.py:_set_flags,_unset_flags"]}
{"id": "C82", "title": "Loading any text is safe", "statement": "Whatever text or file is loaded - damaged, forged, with rows in any order and of any depth, failing after some items were already made -, the trees that exist stay consistent, no existing item changes its tag, value, flags, link, parent or children, and a delivered item is a new item with only new items below it.", "quantifier": "all texts, all files, all states reached by allowed histories", "why_tests_cant": "the input space (tree shapes, tags, values) is unbounded; tests sample it", "anchors": ["src/itertree/itree_serializer/itree_json_serialize.py:loads,load,create_itree_from_raw"]}
{"id": "C83", "title": "Circular links are refused", "statement": "If links lead to each other in a circle (the target of each contains a link root of the circle among its children), load_links() on any of these link roots, or on any item that contains one, raises instead of running for ever or answering with success; the tags and flags of all items and the children of all items that are no link roots stay as they were.", "quantifier": "all trees, all circles of any length through any items, forced or first loading, any number of other links around them", "why_tests_cant": "the input space (tree shapes, tags, values) is unbounded; tests sample it", "anchors": ["src/itertree/itree_main.py:load_links", "src/itertree/itree_helpers.py:iTLink.get_target_tree"]}
{"id": "C84", "title": "Links to items that contain links", "statement": "If the target of a link contains link roots, load_links() loads these first, and so on through all levels: the link root gets one new linked child per child of the target; a child that is a link root is shown with its own tag and value and with the items its own link leads to. Only the children and links of the link roots loaded on the way change, and everything stays consistent. Link roots that are needed for several others are loaded once; link roots can be loaded in any order, and a second load changes nothing.", "quantifier": "all trees, all links nested to any depth within the allowed number of calls, forced or first loading", "why_tests_cant": "the input space (tree shapes, tags, values) is unbounded; tests sample it", "anchors": ["src/itertree/itree_main.py:load_links", "src/itertree/itree_helpers.py:iTLink.get_target_tree"]}
