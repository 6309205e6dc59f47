# Formal model of kneasle/bellframe in Lean 4 — design

## 1. What is modelled, and how

`/repo/src` is modelled function by function in `lean/Verif/Model/*.lean`; each definition cites
the Rust file and lines it models.  The conventions are:

| Rust | Lean |
|---|---|
| `usize` | `Nat`, except where a property is about overflow (`fast_hash`, `choice`, `num_matching_rows`, `SameStageVec::get`), where the machine word is explicit; `Model/Machine.lean` has the functions that calculate with numbers chosen freely by the caller again, in words of any size, with and without overflow checks |
| `Bell`, `Stage` | one-field structures over `Nat` (no subtype: "a stage is never zero" is a theorem about the constructors, not part of the type) |
| `Row`, `RowBuf`, `&mut Row` | one structure `Row` holding a `List Bell`; validity (`Row.Valid`) is a separate predicate |
| panic (`unwrap`, `assert!`, index out of bounds, `unreachable!`, overflow) | `Res α := Except Panic α`, an explicit error value |
| `Result<T, E>` / `Option<T>` | `Except E T` / `Option T` as data inside `Res` |
| `&mut self` methods | functions returning the new value |
| `while`/`loop` whose termination is not syntactically evident | `partial_fixpoint` in `Run α := ExceptT Panic Option α`; `none` means "does not terminate" so termination and non-termination are both provable statements |
| `for` loops | folds or structural recursion |
| iterators | the list of the items they yield (infinite ones: their state machine with a `next` function) |
| `HashSet`, `HashMap` | lists without duplicates / association lists, used only through membership, insertion and lookup; iteration order is a parameter or the statement is order-independent; C89 (`Model/HashSet.lean`) replaces the sets of rows by tables of buckets with an arbitrary hasher, and shows the same answers |
| `&str` | `List Char`; byte offsets are computed with the UTF-8 length of each character |
| `unsafe` accessors (`get_unchecked`, pointer casts between `&[Bell]` and `&Row`) | ordinary checked access / identity: that the access is in bounds is part of what is proved (a model panic there would be undefined behaviour in Rust) |

Which source file is modelled where:

| `/repo/src` | `lean/Verif/Model` | not given a definition of its own |
|---|---|---|
| `bell.rs`, `stage.rs` | `Bell`, `Stage`, `Text` (`Debug`), `SerdeJson` (through JSON), `Machine` (machine words) | `index`, `as_usize`, `num_bells` (the field) |
| `row/borrowed.rs`, `row/owned.rs`, `row/accumulator.rs`, `row/errors.rs` | `Row`, `Text`, `Errors`, `HashSet` (rows as keys), `Cost` (steps), `Alloc` (allocations), `Unchecked` | `!` (`inv`), `from_bell_iter` (`from_vec`), `tranposition_to`, `slice`, `bell_iter`, `into_bell_vec`, `as_mut_row`, `FromStr`, `==` of mixed types; `to_rc`, `to_arc` |
| `row/same_stage_vec.rs` | `SameStageVec`, `Iterators` (its iterator), `MachineVec`, `Alloc`, `Unwind` (after a caught panic) | `permute` (`pre_multiply`), `&v` as an iterator |
| `parity.rs`, `utils.rs` | `Parity`, `Utils`, `MachineMusic` (`choice` in machine words) | |
| `mask.rs`, `music.rs` | `Mask`, `Music`, `MachineMusic`, `Cost` | `elems` (the field) |
| `block.rs` | `Block`, `Text`, `MachineVec`, `Alloc`, `Unwind` | `permute`, `AnnotRow`'s accessors (a pair) |
| `call.rs` | `Call` | accessors |
| `place_not.rs` | `PlaceNot`, `Errors` | `place_nots` (the field) |
| `method/mod.rs`, `method/class.rs` | `Method`, `Class`, `Cost` | accessors |
| `method_lib/mod.rs`, `method_lib/lib_serde.rs` | `MethodLib`, `CcLib` (`cc_lib` as steps), `JsonText`, `Suggestions` | |
| `method_lib/parse_cc_lib.rs` | `ImportXml` | |

## 2. Specification layer

`lean/Verif/Spec.lean` has the small, model-independent specification: a valid row is a non-empty
list of bells in which every bell below its length occurs exactly once, and `ofPerm σ` is the row
of a permutation `σ : Equiv.Perm (Fin n)` of Mathlib.  Row algebra is specified by Mathlib's
permutation group (`*`, `⁻¹`, `^`, `Equiv.Perm.sign`, `orderOf`, `Subgroup.closure`), counting by
`Nat.choose` and `Finset.card`, regexes by an inductive/declarative language, blocks by lists of
rows.  The vocabulary of each area is in its own small file:

| file | vocabulary |
|---|---|
| `Spec.lean` | valid rows, rows of permutations |
| `Spec/Vec.lean` | a same-stage vector holding given rows |
| `Spec/Block.lean` | a well-formed block: one row per annotation and a left-over row; blocks of permutations (`ofPerms`) |
| `Spec/PlaceNot.lean` | changes (involutions moving bells by at most one place), what a text of places means |
| `Spec/PnBlock.lean` | block syntax: delimiters, parts, unfolding; `Follows`: rows rung by changes |
| `Spec/Mask.lean` | which rows a mask stands for |
| `Spec/Music.lean` | the language of a regex, runs |
| `Spec/Method.lean` | rows of the endless plain course, labels after a history, words of a title |
| `Spec/Class.lean` | orbits, hunt paths, the classes and cross sections |
| `Spec/MethodLib.lean` | the methods of a library, assumptions on `to_lowercase` and `shortlist`, the JSON format |
| `Spec/ImportXml.lean` | the documented form of the Central Council's XML file |
| `Spec/PnParity.lean` | what parity a row has; how many pairs a place notation swaps |
| `Spec/HashSet.lean` | what it means that the data written to a hasher identify a value; well-formed tables |
| `Spec/CcLib.lean` | what `cc_lib` must return, assumptions on JSON's grammar (proved in C90) |
| `Spec/JsonText.lean` | the grammar of JSON (RFC 8259) |
| `Spec/PlainHunt.lean` | plain hunting and Plain Bob: places of the bells in closed form, texts of the place notation |
| `Spec/SerdeJson.lean` | texts that begin with the number zero |
| `Spec/Suggestions.lean` | edits of texts, Levenshtein distance, what heaps do |
| `Spec/Grandsire.lean`, `Spec/Stedman.lean`, `Spec/Kent.lean` | places of the bells in closed form and texts of the place notation, as for Plain Bob |
| `Spec/Touch.lean`, `Spec/OneCall.lean` | blocks rung by given changes; a user's program ringing leads with calls, and touches with one call in every course |
| `Spec/Parts.lean` | a user's program adding a block's first part to it again and again |
| `Spec/Truth.lean` | rows rung, true blocks, false lead heads |
| `Spec/MusicOf.lean` | regexes with their bells relabelled, the rows of a block that match |
| `Spec/Cover.lean` | changes with covering bells |
| `Spec/Crossings.lean` | pairs of bells which two rows have in a different order |
| `Spec/Unwind.lean` | what a caller sees who does not catch panics |
| `Spec/Panics.lean` | lists of calls with their arguments; which arguments safe code can make; when each call panics |
| `Spec/Iterators.lean` | double-ended queues, the contract of `ExactSizeIterator` |

Property theorems are in `lean/Verif/Props/*.lean`, apart from the lemmas in
`lean/Verif/Proofs/*.lean`.  Beside each is an `example` meeting its hypotheses.

## 3. Trusted base

* Lean 4.33.0's kernel; axioms used by theorems: at most `propext`, `Classical.choice`, `Quot.sound`
  (checked with `#print axioms`).  No axioms of our own, no `sorry`, no `native_decide`/`bv_decide`.
* The reading of the Rust source: the model is hand-written from the text; the code is not run.
  As a check on this reading, `lean/Verif/Replay/Tests.lean` evaluates on the model every assertion of the
  crate's own unit tests and documentation examples which can be stated about it; all of them hold.
* Mathlib's definitions used in statements (permutations, sign, order, subgroup closure, binomials).
* Behaviour assumed of Rust's standard library (Vec, slices, iterators, HashSet/HashMap lookups,
  `char::len_utf8`, `str::split`, `str::lines`, sorting) and of `itertools` (`zip_eq`, `dedup`,
  `positions`, `collect_vec`) as transcribed in the model; for C75 also the adapters of `core::iter`;
  for C80 that a `Vec` being extended keeps the elements stored before a panic.

Not modelled: `Rc`/`Arc`/`Deref` plumbing, `Borrow` other than of `RowBuf` as a key (C89), most `Debug` formatting, memory layout of unsafe
casts, allocation other than C95's (`Model/Alloc.lean`), running times other than those of C94 (`Model/Cost.lean`), the embedded Central
Council library data file, `minidom`'s parsing of XML text.  `serde_json`, `edit-distance` and `shortlist` are not in /repo: `Model/JsonText.lean`
(C90), `Model/SerdeJson.lean` (C92) and `Model/Suggestions.lean` (C91) are written from their documentation and algorithms; elsewhere they are
parameters with their documented contracts.  `parse_cc_lib.rs` (the build-time XML importer)
does not compile at this commit; it is modelled with the three repairs listed in `Model/ImportXml.lean`.  For `cc_lib` the steps are system calls; HTTP, UTF-8 decoding and
`dirs` are choices of the environment, and nothing but `cc_lib` touches the cache file.

## 4. Per-property plan

`A` = algebraic/round-trip law, `I` = invariant by induction over operations, `R` = refinement to an
abstract spec, `D` = decision logic.  "False" means the code violates the property: we prove the
negation with a witness and a `_partial` theorem for the part that holds.

| id | model | shape and proof |
|---|---|---|
| C01 | bell name table as a list of 33 chars | A: `idxOf`/`getElem` inversion from `Nodup` of the finite table |
| C02 | `Bell.serialize/visitU64` | A: **false** (index written, number read); `_partial`: what reading back gives |
| C03 | name tables | A: full finite table, lifted to all strings by case analysis |
| C04 | `StageVisitor` | A: round-trip; "never panics" **false** at 0; `_partial`: all other inputs |
| C05 | `Parity` | A: case analysis, Int/Nat parity |
| C06 | `from_vec` checklist loop | R: loop invariant "checklist = set of bells seen"; pigeonhole via `List.Perm`/count |
| C07 | `from_vec_with_stage` | R: same invariant plus maximum; find-first for MissingBell |
| C08 | `parse`, `Display` | A: `filterMap` of the name table inverse; false from stage 34 on (negation) |
| C09 | `rounds`, `backrounds`, `queens` | A: list indexing; queens via step_by |
| C10 | all `mul*` | R: to `Equiv.Perm` multiplication |
| C11 | `inv*` | R: loop invariant on partial inverse; to `σ⁻¹` |
| C12 | `solve_*` | A: from C10/C11, uniqueness by cancellation |
| C13 | `pow_*` | R: to `σ ^ n` (Nat and Int) |
| C14 | `parity` loop (partial_fixpoint) | R: to `Perm.sign`; measure = misplaced bells |
| C15 | `effective_stage`, `fixed_bells` | D: least-element characterisation; the doc's literal wording is refuted by a witness |
| C16 | `closure*` loops (partial_fixpoint) | R: list of powers, length `orderOf` |
| C17 | `multi_cartesian_product` | R: list of products; error iff mixed stages |
| C18 | BFS (partial_fixpoint) | R: `Subgroup.closure`; termination by counting finite group |
| C19 | `is_group` | D: iff set is carrier of a subgroup |
| C20 | `fast_hash` with word size | A: positional numerals injective; wrap-around version at stage 16; checked build overflow is a finding |
| C21 | `RowAccumulator` | I: over op lists, hidden buffer quantified |
| C22 | safe row programs | I: op inductive + interpreter, Valid preserved |
| C23 | `SameStageVec` | R: flat buffer = flatten of rows |
| C24 | transposition ops | R: as C23; stage check missing → **false** in general, `_partial` with equal stages; exact effect for every stage and range |
| C25 | `SameStageVec::parse` | D: first bad line; **false** on the empty string (panic) |
| C26 | `AnnotBlock` | I: over block ops; **false** for `extend_range` strict sub-ranges |
| C27 | block extension | A: rows/annots equations, associativity |
| C28 | `split` | A |
| C29 | `RepeatIter` state machine | R: closed form for k-th item |
| C30 | `PlaceNot::parse` | D: declarative completion spec |
| C31 | `permute` | R: to an involutive permutation |
| C32 | `pn_between` | D: soundness, completeness |
| C33 | `Display for PlaceNot` | A |
| C34 | `PnBlock::parse` | A/D |
| C35 | error offsets | D: correct for the first part; **false** after a comma |
| C36 | `to_rows`, constructors | I |
| C37 | masks | D |
| C38 | mask order | D: `is_subset_of` incomplete (**false**), sound; `_partial` |
| C39 | mask transposition | A |
| C40 | mask validity | I: `Mask::parse` **false**; others preserve |
| C41 | `run_match` | R: to declarative language |
| C42 | `normalise` | A |
| C43 | `match_pattern` | R |
| C44 | run regexes | D; `all_runs` with length 0 panics (**false**) |
| C45 | `num_matching_rows` | **false**; `_partial` for one glob and at most one wildcard; exact answer in all cases |
| C46 | mask → regex | D |
| C47 | utils | A |
| C48 | plain course | R + termination: length by `orderOf`; exactly when it ends, divergence otherwise (finding) |
| C49 | labels | I: over histories of label changes |
| C50 | cycles | R: to orbits of the lead head |
| C51 | classify | D: against a declarative definition of the classes; panics for jumps at cross sections (finding) |
| C52 | titles | A: list of words; injectivity by case analysis |
| C53 | library lookup | D; **false** for titles not ending in the stage, `_partial` otherwise |
| C54 | suggestions | D: for every shortlist meeting its contract and every distance |
| C55 | library serde | A: for every iteration order of the hash maps |
| C56 | calls | A: products of changes |
| C57 | `get` with wrap-around | D: **false** for huge indices in release builds; `_partial` without overflow; exact answer for every index |
| C58 | text of masks | A: round trip up to 33 bells |
| C59 | text of regexes | A: round trip of normalised regexes |
| C60 | number of rows of a mask | counting: bijection with permutations of the open places |
| C61 | `from_place_not_string` | R: from C34, C36, C51, C52 |
| C62 | `AnnotBlock::effective_stage` | D: least element |
| C63 | `from_json` | D: **false**, exactly when it panics |
| C64 | undefined behaviour | I: invariant over everything a program can build; **false** with two witnesses, `_partial` without the two causes |
| C65 | `cc_lib` and its cache, calls one after the other | I: invariant over the steps of a call, then over histories; a measure for termination |
| C66 | `cc_lib`, calls at the same time | I: invariant over schedules (the file is text with holes); **false** with witness when the text changes; exactly the bytewise mixtures can arise (constructed schedule) |
| C67 | JSON format of libraries | D: relation between JSON and groups, both directions |
| C68 | Error messages | D: format as character lists; never panics from what the errors say (C30, C35); injectivity by cutting at delimiters |
| C69 | `Display`, `Debug` | A: names of bells are a prefix code; fields without commas |
| C70 | derived `Ord` of rows | A: lexicographic order; first differences against rounds and backrounds |
| C71 | `FullClass::classify` of reversed and rotated changes | A: the course continued to all integer times; both courses are one, up to names, origin and direction; every notion of Spec/Class.lean is invariant |
| C72 | `FullClass::classify` of mirrored changes | A: as C71; pairs of places counted from either end agree by an alternating sum over a lead |
| C73 | `Bell::number`, `name`, `+`, `-`, `clamp_range`, `pow_i`, `run_len` in machine words | A: words of any size, with and without overflow checks, refine unbounded numbers up to the limits |
| C74 | reading bells and stages in machine words | A: as C73; false on 32-bit machines, by witness |
| C75 | `same_stage_vec::Iter` with the adapters of `core::iter` | A: states related to the lists of items left; false, for every vector |
| C76 | `PlaceNot::permute`, `PnBlock::to_block`, `Row::parity` | A: cycle type of a change (only pairs), sign along `Follows` |
| C77 | `PnBlock::parse`, `to_block_from_rounds`, `full_path_of`, `FullClass::classify` | A: the course at integer times (as in C71) reflected in the middle of a part |
| C78 | tables of rows as text | A: induction on lines with C08 and C25; blocks by C25 |
| C79 | `split`, indexing, ranges of vectors and blocks in machine words | A: as C73, on top of C24, C26, C57; **false** in release builds, by witness; exact results of `split`, indexing and ranges |
| C80 | in-place operations returning the object also when they panic (`Model/Unwind.lean`) | R: agreement with the models of C24, C26, C27; case analysis of ranges and of the point of the panic; **false**, by witness |
| C81 | `num_matching_rows` and `choice` in machine words (`Model/MachineMusic.lean`) | A: exact answers in builds with and without overflow checks, on top of C45, C47; **false**, by witness |
| C82 | lists of calls over the whole model (`Spec/Panics.lean`) | D: case analysis over calls, each case from the property of its function |
| C83 | the unsafe functions beside their checked versions (`Model/Unchecked.lean`) | D: each against its checked version, by the properties of that one |
| C84 | regexes of runs, `run_len` | D/I: bijection between places and first bells of runs, double counting over rows and regexes, C45 |
| C85 | `pn_between` over consecutive rows of `to_rows` | D: C32 and C36, uniqueness of the rows by their products |
| C86 | closure, least group and group test together | D: subgroups of the symmetric group (Mathlib), C16, C18, C19 |
| C87 | `parse_cc_lib.rs` on trees of XML elements | R/False: functions invert a relational description of the file; entries by last insertion; C53, C55 |
| C88 | `PnBlock::to_rows`, `Row::parity` | R: sign of an involution by fixed points; sign of products; pigeonhole in the alternating group |
| C89 | `derive(Hash)`, `Borrow`, `ToOwned`, `HashSet` as buckets, `least_group_containing`, `is_group` on them | R: prefix-free encodings; simulation of abstract sets by tables |
| C90 | `serde_json` as used by `to_json`/`from_json`: reader, writer, UTF-8 | R: reader sound and complete for the grammar (inductions on fuel and on derivations), writer in the grammar |
| C91 | `edit_distance`, `Shortlist` over a heap, `generate_suggestions` with them | R: rows of the dynamic programming = recursive distance = least number of edits (induction on edits); invariant of the shortlist |
| C92 | `Bell` and `Stage` through `serde_json` | A: visitors of C02 and C04 on top of the number reader of C90; exact set of texts |
| C93 | the way from place notation to plain course, for two families of methods | A: changes as permutations with a closed form of the rows by induction; order of the lead head; C34, C77, C51, C52, C48 |
| C94 | loops of `run_match`, `parity`, `is_group`, `least_group_containing`, `is_palindromic` with counters | A: induction over the loops, counted against uncounted; size of the support for `parity`, size of the group for `least_group_containing` |
| C95 | buffers with capacities and addresses; a count of allocations (`Model/Alloc.lean`) | A, I: induction over calls with the buffers kept; arithmetic of words; **false** in release builds, by witness |
| C96 | the place notation of Grandsire on `n` bells through parser, rows, class, title and plain course | A: the lead head is a rotation of the way of the working bells, for all `n` |
| C97 | calls spliced into leads by `split` and `extend`; touches as repeated `extend` | I over the leads; row `t` is the product of the first `t` changes |
| C98 | the place notation of Stedman on `n` bells through parser, rows, class, title and plain course | A: the lead head is a cycle of length `n`, with an explicit position of each place in it, for all odd `n` |
| C99 | blocks, courses and touches; solving equations of rows; closures; hash sets of rows | A: no row twice is no permutation twice in the list of rows; cosets of the powers of the lead head; pairwise disjoint leads |
| C100 | methods, calls, courses and touches as in C97; place notation of Plain Bob, of its bob and its single | A: the course head is conjugate to the plain change followed by the called one; its order for Plain Bob from the changes on `n` bells |
| C101 | plain courses of reversed, rotated and mirrored changes | A: the rows of the endless course step by the changes; induction on time; conjugate or inverse lead heads have the same order |
| C102 | the method made from the text of Kent Treble Bob, its class and its course | A: the rows of the lead in closed form, in the group of the changes and the lead head of odd order; rows with the treble in one place differ by a swap, a power of the lead head or such a power times the change of the lead end, which is not a swap from six bells on |
| C103 | rows, changes, courses and classes of methods with covering bells | A: extending a permutation by fixed points is an injective homomorphism that keeps order and sign; the paths of the bells, and with them the specification of classes, are carried along |
| C104 | which rows of blocks match regexes, when bells or places are exchanged, and in extents | A: the matching loop commutes with an injective renaming of bells; the language of the reversed elements is the reversed language; true blocks are lists of distinct permutations |
| C105 | the leads of Plain Bob with and without calls, and touches joined from them | A: rows with the treble in one place on the way out and in differ by the change at the lead, so repeated rows give repeated lead heads or ends; all changes are even when n is 2 mod 4, and the touch is disjoint from its image under a swap |
| C106 | the lead of Grandsire with and without bob, and touches joined from them | A: going on to the next lead head is a cycle on the lead heads; it is the plain lead after a permutation of odd order, both even, so the cycle has odd length; an extent would have all even lead heads with the treble leading, an even number |
| C107 | blocks of place notation between two rows | A: sorting neighbours in odd and even pairs by turns ends after n rounds (counting the numbers above a bound); the paths of the first two bells and the last one would meet if fewer changes turned a row round |
| C108 | blocks of place notation, the rows they ring | A: induction on the stage, the heaviest bell hunting up and down between the changes of the others; then C97 and C99 |
| C109 | blocks of place notation between two rows; `place_of` | A: a change puts at most the pairs it swaps out of order; neighbours in the wrong order can be swapped until none are left; sign of a permutation by pairs out of order |
| C110 | `least_group_containing`, leads with calls, `leftover_row`, `parity` | A: the plain lead head is a cycle of the working bells, a bob rotates three neighbours of the cycle; conjugates of that rotation give all even rows, by induction along the cycle |
| C111 | Grandsire with its bob and single of two changes, `least_group_containing`, `leftover_row`, `parity` | A: the lead head is a cycle of all bells but the first two; the bobbed lead head is that cycle followed by the same cycle with the second and third place exchanged; conjugates of the quotient give all even rows |
| C112 | `extend` of copies of a block, `extend_from_within`, `repeat_iter`, `leftover_row`, `closure`, `solve_xa_equals_b` | I: after t copies the rows are the blocks of powers of the part end; powers below the order are distinct |
| C113 | `split` and `extend` the other way about, `pre_multiply` | A: the rows are those of the rotated list multiplied by the inverse of the row of the split; left multiplication is injective |
| C114 | `PlaceNot::parse`, `pn_between` | A: a change keeps the first bell or swaps the first two; the counts add up as Fibonacci numbers do |
| C115 | `queens`, `backrounds`, `closure`, `inv` | A: Queens doubles places modulo the odd one of n and n-1, so its powers multiply by powers of two |

## 5. Findings (places where code and property disagree)

Each has a theorem with a witness; see also the `note` fields of MANIFEST.json.

* C02: a bell is serialised as its index and deserialised as its number: no bell survives.
* C04: deserialising a stage from 0 panics.
* C08, C33, C58: text of rows, place notation and masks cannot be read back from 34 bells on.
* C15: `effective_stage` is not the shortest prefix that is a row: for 2143 it is 4, though 21 is a row.
* C17: sets after an empty set are never checked for their stage ({12}, {}, {123} is accepted).
* C20: with overflow checks `fast_hash` panics for some of the stages documented as safe (it multiplies once
  more than needed): for n bells the check is n^n < 2^64.
* C24: `extend_transposed` does not check stages; `extend_transposed_from_within` past the end reads rows
  just appended.
* C25: `SameStageVec::parse("")` panics.
* C26: `extend_range` copies all annotations whatever the range, breaking the block.
* C35: error positions after a comma are wrong; the end of a range of wrong places is one byte too far.
* C38: `is_subset_of` misses inclusions of masks with exactly one open place.
* C40: `Mask::parse` and `set_bell` make malformed masks.
* C44: `all_runs(stage, 0)` gives regexes that panic on every row.
* C45: `num_matching_rows` is wrong for wildcards, several globs and repeated bells, and may panic.
* C48: `plain_course` may run for ever on leads that do not start from rounds; `row_in_plain_course` of an
  empty lead divides by zero.
* C49: `with_lead_end` and `set_lead_end_label` label different rows.
* C51: `classify` panics on leads with jumps at cross sections, empty leads, and leads not starting from
  rounds; it never reports jump methods.
* C52: titles panic above 22 bells; titles of principles and hybrids coincide.
* C53: methods whose title does not end in the name of their stage are never found.
* C55, C63: `to_json` panics above 22 bells; `from_json` panics on unknown classes, no bells, and missing
  titles above 22 bells.
* C57: `SameStageVec::get` of a huge index wraps around in release builds; the bells returned may be no row at all (`C57_not_a_row`).
* C64: two safe programs read out of bounds in `pre_multiply`: one through a malformed mask, one through
  `extend_transposed` from another stage followed by `inv_into_buf`.
* C65, C66: the cache of `cc_lib` is not written atomically: two processes can mix up two versions of the
  library into one that loads. A cache on which `from_json` panics is never replaced.
* C73: the very last bell has no number, and the name `<0>` without overflow checks; ranges `..=usize::MAX`
  are empty without checks and panic with them; `pow_i(isize::MIN)` panics with checks; the first and the
  very last bell are taken for a run.
* C74: on 32-bit machines serialised numbers are cut off to 32 bits: other bells and stages, or panics.
* C79: in release builds `SameStageVec::split(i)` with `i * stage` above 2^64 cuts the vector at the wrapped
  product, perhaps in the middle of a row; ranges past the end of a vector copy rows from its start.
* C80: after a caught panic of `extend_range` a block has lost its left-over row; after one of
  `extend_from_within`, or of `Clone` of an annotation, it has rows without annotations.
* C81: `num_matching_rows` promises `None` on overflow; in release builds it answers 21! mod 2^64 for `x*` on 21
  bells, and divides by zero for 66 wildcards on 65 bells.
* C82: undocumented panics: masks without places (`Mask::parse("")`) in `stage`, `matches`, `is_subset_of`,
  `is_compatible_with` and `combine`; a row times a mask with a bell outside the stage; methods on more than 22
  bells.
* C75: `same_stage_vec::Iter` breaks the contract of `ExactSizeIterator`: `v.iter().skip(n).rev()` panics at
  its first item for every vector.
* C83: the condition documented for `RowBuf::from_bell_iter_unchecked` holds of the empty iterator, which gives a
  row without bells, whose `stage` panics.
* C84: `num_matching_rows` of each regex of `all_runs` is `(n - len)!`, but it matches `(n - len + 1)!` rows.
* C87: `parse_cc_lib` does not compile (three errors: the path of `Class`, `usize` into `Stage`, the missing
  field `title`).  Repaired, it stores methods under titles that are not in lower case, so that
  `get_by_title` does not find them until the library has gone through JSON.
* C92: `Stage` and `Bell` call `deserialize_u64`, so from JSON they can be read from numbers only: the names that
  `visit_str` knows and the comment on `StageVisitor` promises are never read. Reading a stage from a text that begins
  with `0` panics before the rest of the text is looked at.
* C95: in release builds `SameStageVec::with_capacity` with a capacity whose product with the stage wraps makes
  a vector that reallocates early (`C95_capacity_false`). `src/parity.rs:8` says that `Row::parity` always
  allocates; the code, as `src/row/borrowed.rs:141` says, does not.
