#!/usr/bin/env python3
"""Regenerates properties.jsonl (one JSON object per line)."""
import json
M='src/itertree/itree_main.py'; P='src/itertree/itree_private.py'; H='src/itertree/itree_helpers.py'
G='src/itertree/itree_getitem.py'; D='src/itertree/itree_indepth.py'; I='src/itertree/itree_indepth_helpers/itree_indepth_iter.py'
S='src/itertree/itree_indepth_helpers/itree_indepth_siblings.py'; L='src/itertree/itree_indepth_helpers/itree_indepth_levels.py'
J='src/itertree/itree_serializer/itree_json_serialize.py'; C='src/itertree/itree_serializer/itree_json_converter.py'
R='src/itertree/itree_serializer/itree_renderer.py'; F='src/itertree/itree_filters.py'; MS='src/itertree/itree_mathsets.py'
DA='src/itertree/itree_data.py'
HIST='a unit test runs finitely many histories of bounded length; the claim is about every reachable state'
INP='the input space (tree shapes, tags, values) is unbounded; tests sample it'
props=[]
def add(title,statement,quant,why,*anchors):
    props.append(dict(id='C%02d'%(len(props)+1),title=title,statement=statement,quantifier=quant,why_tests_cant=why,anchors=list(anchors)))

add('Family view agrees with the item order','After any history of mutating calls, for every item t and every tag g, t[g] (and t[(g,i)]) delivers exactly the children of t carrying tag g, in the order in which iterating t delivers them; tags without children are not found.',
 'all histories of append/appendleft/insert/extend/extendleft/del/pop/remove/move/rename/reverse/rotate/setitem/set-value/flag calls on any set of items',HIST,M+':append,appendleft,insert,extend,extendleft,__delitem__,move,rename,reverse,rotate,__setitem__',P+':_iter_extend,_append_item,_append_item_left,_get_family_insertion_idx')
add('Parent and child agree','After any history, c is delivered by iterating p exactly when c.parent is p; iteration delivers no item twice, and no item is a child of two parents.',
 'all histories of mutating calls, all pairs of items',HIST,M+':parent,append,insert,extendleft,__delitem__,clear,sort,__setitem__',P+':_append_item,_iter_extend')
add('append adds exactly one last child','t.append(x) with x parentless on an unprotected t makes x the last child, keeps every other child and its order, returns x, and changes no other item; if x has a parent RecursionError is raised and nothing changes; a non-iTree argument is wrapped in a fresh NoTag item holding it as value.',
 'all trees, all items',INP,M+':append,__iadd__')
add('appendleft adds exactly one first child','t.appendleft(x) makes x child 0 and shifts the others by one; nothing else changes; the error cases are those of append.','all trees, all items',INP,M+':appendleft',P+':_append_item_left')
add('insert works like list.insert','t.insert(k, x) leaves the children list equal to what list.insert(k, x) would give, for every integer k (negative, zero, beyond the end) and keeps the family order aligned.','all trees, all integers k, all items x',INP,M+':insert',P+':_get_family_insertion_idx')
add('The family position search is exact','The interval search used when an item is placed in the middle returns the number of family members lying before the absolute position, for every family size and every position.','all family lists and positions',INP,P+':_get_family_insertion_idx')
add('extend appends in order','t.extend(items) leaves the children list equal to the old children followed by the given items in order, where items that already have a parent are replaced by fresh copies and non-iTree objects by fresh NoTag items; originals keep their parent.','all trees and all finite iterables',INP,M+':extend',P+':_iter_extend')
add('extendleft prepends in order','t.extendleft(items) leaves the children list equal to the given items (in the given order) followed by the old children, which keep their identity.','all trees and all finite iterables',INP,M+':extendleft')
add('del t[i] / pop(i) removes exactly that child','For -len(t) <= i < len(t), del t[i] (pop(i)) removes exactly the child at i, which becomes parentless and is returned; every other item keeps its parent and relative order; out of range i raises and changes nothing.','all trees, all integers i, any cache state, any == on items',INP,M+':__delitem__,pop,remove')
add('t[i] = x replaces exactly that child','Setting an item by absolute index puts x at position i, detaches the old child, keeps all other children and keeps all families aligned.','all trees, all i in range, all new items',INP,M+':__setitem__')
add('move repositions an item','x.move(k) takes x out of its position and puts it before the item that was at k; all other items keep their relative order; x.move() makes it last.','all trees, all positions',INP,M+':move')
add('rename changes only the tag','x.rename(g) changes the tag of x to g, keeps the item order of the parent, and afterwards families are aligned with the new tags.','all trees, all items, all tags',INP,M+':rename')
add('reverse reverses','t.reverse() reverses the item order and every family order; applied twice it is the identity.','all trees',INP,M+':reverse')
add('rotate rotates','t.rotate(n) moves the last n (n>0) or first -n (n<0) children to the other end, loses no child; rotate(n) then rotate(-n) is the identity.','all trees, all integers n',INP,M+':rotate')
add('sort is a stable sort that keeps the items','t.sort(key) reorders the children so that keys are non-decreasing, is stable, keeps exactly the same item objects and detaches nothing.','all trees, all key functions',INP,M+':sort')
add('clear empties the item','t.clear() leaves t without children and without value (unless keep_value), all former children are parentless, flags except LOAD_LINKS are unchanged, and no query finds former children. With local_only, on a link root, exactly the local children go.','all trees',INP,M+':clear',P+':_unset_flags')
add('idx is the true position whatever the caches hold','For every child c of p in any reachable state, c.idx is the unique i with p[i] is c, and reading it changes no observable state; for a root it is None.','all trees, all contents of the cached indexes',HIST,M+':idx')
add('tag_idx is the true family position whatever the caches hold','For every child c of p in any reachable state c.tag_idx is (c.tag, i) where i is the position of c among the children with its tag, and p[c.tag_idx] is c.','all trees, all contents of the cached indexes',HIST,M+':tag_idx')
add('Paths lead back to the item','For every item x, x.root.get.by_idx(*x.idx_path) is x and the path length is x.level; the same holds with tag_idx_path and get.by_tag_idx.','all trees, all items, all depths',INP,M+':idx_path,tag_idx_path,root,level,ancestors',G+':by_idx,by_tag_idx')
add('Lookup by index, slice and key follows Python lists','t[i], t[a:b:c], t[(g,i)] and t[(g,a:b:c)] select exactly what list indexing selects in the children list resp. the list of children with tag g; misses raise IndexError/KeyError and never deliver a wrong item.','all trees, all targets',INP,M+':__getitem__')
add('Structure protection is effective','If an item is tree-protected (read-only, linked or placeholder, and not a link root) every structure changing call on it (append, appendleft, insert, extend, extendleft, del, pop, setitem, reverse, rotate, sort, clear, and move/rename of a child) raises PermissionError and changes nothing; and whatever is called on any item, in any order, a protected item keeps its children, their order and their families as long as nobody takes flags away from it; a subtree whose items are all protected keeps its whole structure and the tags below its root.','all states, all calls, all histories',HIST,M+':append,appendleft,insert,extend,extendleft,__setitem__,__delitem__,move,rename,reverse,rotate,sort,clear')
add('Value protection is effective','If is_value_read_only is True no value changing call (set_value, set_key_value, del_value, del_key_value) changes the value; each raises PermissionError; through every history of calls on any items the value stays as it is until an unset call reaches the item or it is cleared.','all states, all calls',HIST,M+':set_value,set_key_value,del_value,del_key_value,is_value_read_only')
add('set_tree_read_only is deep and unset is exact','set_tree_read_only sets the protection on the item and all its descendants and nothing else; unset_tree_read_only / unset_value_read_only clear exactly the named flag; an item cannot be unprotected while its parent is protected.','all trees, all flag states',INP,M+':set_tree_read_only,unset_tree_read_only,set_value_read_only,unset_value_read_only',P+':_set_flags,_unset_flags')
add('Failed calls change nothing','If a mutating call raises, children, parents, families, values and flags of all items are as before the call.','all states, all calls that raise',HIST,M+':append,insert,extendleft,rotate,__setitem__,__delitem__')
add('No cycles','No history of calls makes an item its own ancestor; so parent chains end at a root and deep iteration terminates.','all histories',HIST,M+':append,insert,extend',P+':_append_item')
add('Down iteration is pre-order','list(t.deep) lists every descendant exactly once, each parent before its children and siblings in item order (pre-order), independent of depth.','all trees (all shapes and depths)',INP,D+':__iter__',I)
add('Up/reverse iterations are the named orders','deep.iter with UP delivers post-order, with REVERSE the mirrored pre-order, with UP|REVERSE the mirrored post-order; SELF adds exactly the item itself; all four deliver the same multiset.','all trees, all option combinations',INP,D+':iter',I)
add('Filtered deep iteration is hierarchical unless FILTER_ANY','With a filter, deep.iter delivers exactly the descendants for which they and all ancestors below the start match (hierarchical), in the order of the unfiltered iteration; with FILTER_ANY exactly the matching descendants.','all trees, all predicates',INP,D+':iter',I)
add('Path iterators agree with the items','deep.idx_paths / deep.tag_idx_paths deliver for every item of the corresponding iteration exactly its index path / tag-index path.','all trees',INP,D+':idx_paths,tag_idx_paths',I)
add('Deep length and depth','len(t.deep) is the number of descendants; t.max_depth is the largest level difference of a descendant; deep.siblings(n) are exactly the descendants at level n in order.','all trees, all levels',INP,M+':max_depth,level',D+':__len__,siblings',S,L)
add('copy is an equal, independent tree','t.copy()/deepcopy() has the same shape, tags, values and flags as t, all its items are fresh, its root is parentless, the original is unchanged and later changes to one do not affect the other.','all trees',INP,M+':copy,deepcopy,copy_keep_value,__copy__',P+':_iter_copy,_get_copy_args')
add('== is an equivalence on content','t == u holds exactly when tags, values and the whole structure below coincide; it is reflexive, symmetric and transitive and equal items have equal hashes.','all pairs/triples of trees',INP,M+':__eq__,__hash__,equal',P+':_value_equal')
add('dump/load round trip','Loading a dumped tree delivers a tree with the same shape, tags, values, links and flags.','all trees over serializable tags/values',INP,J,M+':dumps,loads')
add('JSON value conversion round trip','Converting any supported value (None, bool, int, float, str, bytes, list, tuple, set, deque, dict, OrderedDict and nestings, constants, objects with get_init_args) to its JSON form and back delivers the same value and type.','all nested values',INP,C)
add('Tampered or foreign data is rejected on load','A dump whose data section differs from the one hashed is rejected when the hash check is on; wrong versions are rejected.','all file contents',INP,J)
add('render prints every item once, indented by level','render produces one line per (matching) item in pre-order with an indentation that is a function of the level only.','all trees',INP,R)
add('Interval membership','x in mSetInterval(a,b) holds exactly when x lies between the limits, respecting open/closed and infinite limits and the integer-only option; swapped limits are normalised.','all numbers x, all limits',INP,MS+':mSetInterval')
add('Complement negates membership','For every interval, roster and combination s, x in the complement of s exactly when not x in s; complementing twice is the identity.','all sets and all elements',INP,MS+':_mSetBase,mSetInterval,mSetRoster,mSetCombine')
add('Union and intersection','x in mSetCombine(a,b,..) is the disjunction (union) resp. conjunction (intersection) of the memberships; De Morgan holds.','all finite combinations, all elements',INP,MS+':mSetCombine')
add('Interval iteration and cardinality','For a bounded integer interval, iterating delivers exactly its members in increasing order and cardinality equals the number of members; emptiness is reported exactly when there are no members.','all integer limits',INP,MS+':mSetInterval.cardinality,__iter__,is_empty_set')
add('Filters match exactly what they describe, invert is negation','Every filter class answers with a bool, True exactly for the items its description names (flags, tag, value, dict value, list element, key, index, pattern, interval), and the same filter with invert=True gives exactly the negated answer; mapping a filter over items gives one answer per item in order.','all filter classes, all arguments, all items',INP,F)
add('Value models only store accepted values','After any history of set/clear on a value model the stored value is NoValue or was accepted by the model (cast, contained, shape), and a rejected set leaves the stored value unchanged and raises.','all histories, all values',HIST,DA+':iTValueModel')
add('Shape check is the documented dimension limit','The shape check accepts a value exactly when every dimension is within the documented limit (ints bound, INF free, Any optional).','all value shapes, all model shapes',INP,DA+':_check_shape,_get_max_shape')
add('Enumerations of children agree','keys(), items(), values(), tags(), iter_families() and len(t) describe the same children: keys are unique, t[key] is the item, families are listed by first (last) member position.','all trees',INP,M+':keys,values,items,iter_families,tags,tag_number')
add('Membership queries','x in t holds iff some child equals x; t.is_in(x) iff x is a child object; t.is_tag_in(g) iff some child has tag g; count and index agree with the list of children.','all trees and arguments',INP,M+':__contains__,is_in,is_tag_in,count,index',D+':is_in,is_tag_in')
add('Linked items mirror their source and are protected','After load_links the linked part of a link root has the keys, tags, values and structure of the source; linked items are protected; local items survive reloading.','all trees, all links',INP,M+':load_links,make_local',P+':_convert_to_linked_item,_iter_locals_add_placeholders')
add('Item arithmetic','t+u has the children of t then of u (copied); t*n has n copies; operands are unchanged.','all trees, all n',INP,M+':__add__,__mul__,__rmul__')
add('Multi-target get','t.get(*path) descends level by level and delivers the concatenation of the matches in order; get.single raises unless there is exactly one match.','all trees, all target paths',INP,G)
add('Trees do not influence each other','A call changes nothing in a tree whose items it is neither made on nor given as argument, whatever the call and its outcome; so a whole history of calls on other trees (copies included) leaves a tree exactly as it was.','all trees, all histories of calls on items of other trees',INP,M+':append,insert,extend,__delitem__,__setitem__,move,rename,reverse,rotate,sort,clear,copy',P+':_iter_copy,_iter_extend')
add('The constructor builds exactly the given children','iTree(tag, value, subtree, flags) never fails and gives a parentless item with these properties whose children correspond one to one, in order, to the given objects: plain values become leaves, parentless items are taken over, items with parent (or given twice) are copied; protection flags reach every level; no other item changes.','all histories before, all argument lists, all flags',INP,M+':__init__',P+':_iter_extend,_set_flags_deep')
add('Interval equality and construction arguments','Rebuilding an interval from get_init_args() gives an equal interval; two intervals that compare equal have the same members.','all intervals, all asked numbers',INP,MS)
add('Interval string form round trip','The string form (math_repr) of an interval is accepted by the constructor and gives exactly that interval again.','all intervals with integer, infinite or variable limits, open or closed, int-only or not, complement or not',INP,MS)
add('What is stored is what is read','set_value/set_key_value/del_value/del_key_value change exactly the addressed part of the value of exactly that item and return what was there before; get_value/get_key_value then give the new content (through a value model: its content); all other keys or list positions read as before.','all items, all stored values, all keys and indexes',INP,M+':set_value,set_key_value,get_value,get_key_value,del_value,del_key_value')
add('In-depth reverse, sort and remove','deep.reverse() turns a tree into its mirror image, deep.sort() sorts the children of every item stably, deep.remove(*targets) takes exactly the selected items out; nothing else changes and a protected item never loses its order.','all histories, all trees of any depth, all keys and targets',INP,D+':reverse,sort,remove')
add('In-depth flag calls','deep.set_value_read_only / unset_value_read_only / unset_tree_read_only change exactly that flag on exactly the selected items (all, hierarchically filtered, filtered) and are refused below a protected parent.','all trees, all filters',INP,D+':set_value_read_only,unset_value_read_only,unset_tree_read_only')
add('Copies and value objects','After c = t.deepcopy() no in-place change of value objects reachable from c is ever visible in t or in anything that existed before, and vice versa, and all values look the same; c = t.copy() gives list, dict and model values new top-level objects with the same elements; c = t.copy_keep_value() shares every value object.','all trees, all value object graphs (shared, nested, cyclic), all later programs working on the value objects',HIST,M+':copy,deepcopy,copy_keep_value',P+':_get_copy_args,_get_args_skip_subtree,_get_deepcopy_args,_iter_copy')
add('repr and pickle rebuild the tree','eval(repr(t)) and unpickling a pickled t build a new parentless tree of new items with the same tags, values, flags, order and nesting; nothing existing changes.','all trees whose tags and values have an evaluable repr (repr), all trees (pickle), all states in which the text is evaluated',INP,M+':__repr__,__reduce__,get_init_args')
add('Size comparisons and counters','t<u, t<=u, t>u, t>=u order items by their number of children and never contradict ==; filtered_len counts the matching children; tag_number is the number of different tags among the children.','all trees, all filters, all histories',INP,M+':__lt__,__le__,__gt__,__ge__,filtered_len,tag_number')
add('equal with options','t.equal(u) is the same as t==u; t.equal(u,check_flags=True) holds exactly when in addition the flags agree on all pairs of items met in parallel.','all pairs of trees',INP,M+':equal')
add('force_cache_update makes positions directly readable','x.force_cache_update() changes nothing observable, and afterwards idx and tag_idx of x and all its siblings are correct and read without any search.','all trees, all outdated caches, all siblings',INP,M+':force_cache_update,idx,tag_idx')
add('Iteration level by level','deep.levels(slice(s,e,st)) delivers the items of the levels s, s+st, ... before e, one level after the other, each level as deep.siblings delivers it (reverse and SELF included), no item twice; with a list of levels the given levels in that order.','all trees, all starts, ends, steps, all options',INP,D+':levels,siblings','src/itertree/itree_indepth_helpers/itree_indepth_levels.py:_levels_via_siblings_iterable')
add('Bottom-up level queries','negative_levels, equal_negative_level and in_negative_level answer from the distances between the item and the leaves below it.','all trees, all distances',INP,M+':negative_levels,equal_negative_level,in_negative_level')
add('Older data models only hold validated values','After any history of set/check/clear on an iTDataModel the stored value is NoValue or was delivered by the validator; a rejected value raises and changes nothing; the formatted text is the text of the value stored now; check only answers.','all histories, all validators and formatters',HIST,DA+':iTDataModel')
add('iTData stores and guards','d[k]=v is what d[k] delivers, all other keys and the order stay; del/pop remove exactly one key; every key is there once; clear(values_only=True) keeps and empties exactly the models; a model stored under a key checks what is stored and stays.','all histories, all keys and values, all model objects',HIST,DA+':iTData')
add('iTData.update is all-or-nothing','If one item of an update is invalid nothing is changed at all; otherwise every given key has the given value, through its model where there is one, and other keys are as before.','all dictionaries, all arguments, all validators',INP,DA+':iTData.update')
add('iTDataReadOnly never changes','No sequence of calls on an iTDataReadOnly object changes its items; each attempt raises PermissionError.','all histories of calls',HIST,DA+':iTDataReadOnly')
add('iter_in and filter agree with membership','s.iter_in(elements) gives for each element, in order, what (element in s) gives; s.filter(elements) delivers exactly the elements that are in s, in order; a question that raises is raised in both.','all sets (intervals, rosters, nested combinations), all finite iterables, all variable dictionaries',INP,MS+':iter_in,filter')
add('Set-builder definitions mean what they say','mSetInterval("{x| statements}") accepts every documented definition (comparisons with numbers or variables, equality, inequality, numerical domains, one or two statements, complement signs) and a number is a member exactly when it satisfies all statements (exactly when not, for a complement).','all limits, all documented statements and combinations, all asked numbers and variable values',INP,MS+':_parse_builder_definition_str,_replace_lower_limit,_replace_upper_limit,_get_set_data,__init__')
add('Subtraction of items','t-u delivers a new parentless tree: a copy of t without the items that u has under the same key and that are equal, whatever the order of the children; different items under the same key are subtracted recursively, keys only u has are ignored; t and u are not changed.','all trees, all pairs of items',INP,M+':__sub__')
add('The graph description is the tree','iTreeRenderDot(t, filter) delivers one node statement with its own number for t and for every (hierarchically) matching item below, in pre-order, labelled with key, value or link in quotation marks, and exactly one edge statement per item below t, from its parent; nothing is changed and it never fails.','all trees, all filters, all stored positions',INP,'src/itertree/itree_serializer/itree_render_dot.py:renders,_build_item,render_children')
add('Filtered dumps','dumps(filter_method=f) followed by loads delivers a new tree with the root and exactly the items that pass f and whose ancestors below the root pass f, with their tags, values, order and nesting; refused items are not looked at; a filter that accepts everything changes nothing.','all trees over serializable tags/values, all filters',INP,J+':dumps',P+':_iter_deep_locals_add_placeholders_filtered')
add('Old files are converted','Converter_1_1_1_to_2_0_0 turns every file of version 1.1.1 into a new tree with the tags, values, order, nesting and protection it describes; other versions and (when checked) data that does not fit the hash are refused; nothing existing changes.','all documents of the old format (trees, nested values, field orders), all headers',INP,C+':Converter_1_1_1_to_2_0_0_Cls.convert,create_itree_from_raw')
add('Linked items can be made local and taken back','x.make_local() on a linked child of a link root puts a new item that is not linked, with the tag, value and (if wanted) subtree of x, in the place of x and changes nothing else; anything else is refused without a change; deleting the local item brings x back to its place.','all trees with link roots, all linked items, both subtree options',INP,M+':make_local,__delitem__',P+':_convert_to_local_item')
add('Loading a link builds the mirror and keeps the locals','load_links() on a link root gives it one new linked item per child of the source, in the order of the source, with the tags, values and structure below; local children survive, one with a key of the source takes the place of that item and covers it; the source and all other items are unchanged; a link already loaded whose source kept its keys is not loaded again; a missing source or a circular link raises.','all trees, all link roots with any children, all sources',INP,M+':load_links',P+':_convert_to_linked_item,_iter_locals_add_placeholders')
add('Files hold the tree and are not overwritten unasked','dump(file) writes exactly that file, and load(file) later delivers a new tree with the tags, values, order, structure and links of the dumped one, packed or not; an existing file is not overwritten unless allowed, a failed dump leaves every file as it was, a missing file raises.','all trees over serializable tags/values, all file systems, all options, any history between dump and load',INP,J+':dump,load',M+':dump,load')
add('Links find their target, load_links() loads all links below','A link finds exactly the item its path leads to from the root of its own tree (or of the loaded file), the idx_path and tag_idx_path of an item lead back to it; load_links() on any item loads every link root below it with mirrors of its target and answers whether there was any; without links nothing happens; with delete_invalid_items=True the link roots that lead nowhere are removed and the others loaded; a file link is loaded again exactly when the file has changed.','all trees, all paths, all positions of link roots, all file systems',INP,M+':get_target_tree,load_links',H+':iTLink')
add('Items and options describe themselves','flags_repr() names exactly the flags that are set; link_root is the highest linked item above a linked one; is_link_loaded tells whether the own link, or some link below, is loaded; str(x) is repr(x) without inner siblings; the option texts name exactly the options; the list helpers (last position, accumulation, emptiness, result list) give what they say and leave their argument as it was.','all flags, all trees with links, all option numbers, all lists',INP,M+':flags_repr,link_root,is_link_loaded,__str__',H+':ITER,rindex,accu_iterator,is_iterator_empty,getter_to_list')
add('The variables of a set','s.vars names all variables the answers of a set depend on: variable dictionaries that agree on them get the same answer, a set without variables needs no dictionary, and with a value for each of them no question for a number is refused with TypeError; a variable limit without value is refused.','all sets (intervals, rosters, nested combinations), all numbers, all variable dictionaries',INP,MS+':vars,has_vars,__contains__')
add('Set items compare and hash by their values','Items made of numbers are ordered like their numbers (<, <=, >, >= agree with each other), comparisons with a variable give no answer (None); == is an equivalence relation that fits the order, and equal items have equal hashes.','all items, numbers, infinities and variables, all complement flags',INP,MS+':mSetItem.__eq__',MS+':mSetItem.__hash__',MS+':mSetItem.__lt__')
add('Coupled objects stay with their item','coupled_object is the object given last by set_coupled_object, None without; coupling is invisible for the tree and untouched by every call, protection and renaming; copies have none; equal(check_coupled=True) compares exactly the objects in addition; load_links() hands the objects of replaced linked items over to the items that replace them.','all histories of calls and couplings, all trees with links, all objects',HIST,M+':coupled_object,set_coupled_object,equal,load_links')
add('Tag, value, flags and link of an item change only by calls on it','Whatever is called on other items, in any order, failing or not: an item keeps its tag unless it is renamed itself; keeps its stored value (values that are not objects shared between items) unless a value call or clear is made on it; loses no flag unless an unset call reaches it or it is cleared; and no call makes an existing item a link root, or changes what it links to, except its own clear and load_links.','all states, all histories of calls on any items',HIST,M+':rename,set_value,set_key_value,del_value,del_key_value,clear,set_tree_read_only',P+':_set_flags,_unset_flags')
add('Loading any text is safe','Whatever text or file is loaded - damaged, forged, with rows in any order and of any depth, failing after some items were already made -, the trees that exist stay consistent, no existing item changes its tag, value, flags, link, parent or children, and a delivered item is a new item with only new items below it.','all texts, all files, all states reached by allowed histories',INP,J+':loads,load,create_itree_from_raw')
add('Circular links are refused','If links lead to each other in a circle (the target of each contains a link root of the circle among its children), load_links() on any of these link roots, or on any item that contains one, raises instead of running for ever or answering with success; the tags and flags of all items and the children of all items that are no link roots stay as they were.','all trees, all circles of any length through any items, forced or first loading, any number of other links around them',INP,M+':load_links',H+':iTLink.get_target_tree')
add('Links to items that contain links','If the target of a link contains link roots, load_links() loads these first, and so on through all levels: the link root gets one new linked child per child of the target; a child that is a link root is shown with its own tag and value and with the items its own link leads to. Only the children and links of the link roots loaded on the way change, and everything stays consistent. Link roots that are needed for several others are loaded once; link roots can be loaded in any order, and a second load changes nothing.','all trees, all links nested to any depth within the allowed number of calls, forced or first loading',INP,M+':load_links',H+':iTLink.get_target_tree')
open('/verif/properties.jsonl','w').write(''.join(json.dumps(p)+'\n' for p in props))
print(len(props))
