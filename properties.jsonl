{"id": "C01", "title": "Bell names round-trip", "statement": "Bell::from_name accepts a character exactly when it is one of the 33 bell names; the bell it returns has that character as its to_char() and one-character name(), different characters give different bells, and number() is always index()+1 with from_number rejecting only 0. TREBLE is the one bell with index 0, number 1 and name 1.", "quantifier": "every Unicode character and every bell index/number", "why_tests_cant": "The name table has 33 entries but the input ranges over all characters and all integers; uniqueness is a statement about every pair.", "anchors": ["src/bell.rs: Bell::from_name, Bell::to_char, Bell::name, Bell::from_number, Bell::number, Bell::from_index, Bell::index"]}
{"id": "C02", "title": "Serialising a bell and reading it back gives the same bell", "statement": "Deserialize(Serialize(bell)) = bell.", "quantifier": "every bell", "why_tests_cant": "A round-trip law over an unbounded set of bells (the code in fact breaks it: it writes the zero-based index and reads it as a one-based number).", "anchors": ["src/bell.rs: impl Serialize for Bell, impl Deserialize for Bell, BellVisitor"]}
{"id": "C03", "title": "Stage names and stage bookkeeping", "statement": "The lower-case stage names and the capitalised stage names name the same 22 stages one-to-one (Stage::from_lower_case_name(s) = Some(stage) iff lower-casing stage.name() gives s); a Stage can never be zero; bells() lists exactly the bells with index below num_bells(), in order; tenor() is the last of them. Each constant of Stage (ONE to SIXTEEN) is the stage of that name, and there is one for every stage up to 16 bells.", "quantifier": "every string and every stage", "why_tests_cant": "Ranges over all strings and all stages.", "anchors": ["src/stage.rs: Stage::new, Stage::from_lower_case_name, Stage::name, Stage::bells, Stage::tenor, Stage::num_bells, TryFrom<usize>"]}
{"id": "C04", "title": "Deserialising a stage never panics and inverts serialisation", "statement": "Reading a stage from any number or string either returns an error or a stage; reading back what serialising a stage wrote returns that stage.", "quantifier": "every serialised value (integers of either sign, strings) and every stage", "why_tests_cant": "All inputs, including the boundary 0 which crashes the implementation.", "anchors": ["src/stage.rs: impl Serialize for Stage, StageVisitor, try_parse_stage"]}
{"id": "C05", "title": "Parity is the two-element group", "statement": "Parity multiplication is associative and commutative, Even is neutral, every parity is its own inverse, from_number(n) is Odd exactly for odd n and turns addition into multiplication, and plus_or_minus/zero_or_one are faithful encodings of it.", "quantifier": "every parity and every integer", "why_tests_cant": "from_number ranges over all integers.", "anchors": ["src/parity.rs: Parity::from_number, Parity::mul, Parity::zero_or_one, Parity::plus_or_minus"]}
{"id": "C06", "title": "Row constructors accept exactly the permutations", "statement": "RowBuf::from_vec / from_bell_iter succeed exactly when the bells are a rearrangement of the first n bells (n = their number) and then keep them unchanged; otherwise they report an error that is true of the input: BellOutOfStage names a bell of the input that is outside the stage, DuplicateBell names a bell that occurs at least twice.", "quantifier": "every list of bells (non-empty; the empty list is a documented panic/err case stated separately)", "why_tests_cant": "The set of inputs is infinite; accepting a non-permutation breaks memory-safety assumptions of unsafe code.", "anchors": ["src/row/owned.rs: RowBuf::from_vec, RowBuf::from_bell_iter", "src/row/errors.rs: InvalidRowError"]}
{"id": "C07", "title": "Rows parsed for a stage are completed to that stage", "statement": "RowBuf::from_vec_with_stage / parse_with_stage succeed exactly when the given bells are a rearrangement of the first k bells for some k that fits in the stage, and then return them followed by the remaining bells in order; otherwise the error is accurate, and MissingBell names the lowest bell that is missing.", "quantifier": "every list of bells and every stage", "why_tests_cant": "Infinite input space with three interacting error conditions.", "anchors": ["src/row/owned.rs: RowBuf::from_vec_with_stage, RowBuf::parse_with_stage"]}
{"id": "C08", "title": "Displaying and re-parsing a row gives the row back", "statement": "RowBuf::parse(row.to_string()) = Ok(row) for stages up to 33; parse and parse_with_stage read exactly the characters that are bell names, in order, and ignore every other character; they then succeed or fail as from_vec and from_vec_with_stage do with these bells.", "quantifier": "every row and every string", "why_tests_cant": "All n! rows of every stage; also identifies the exact stage (34) from which the law breaks.", "anchors": ["src/row/owned.rs: RowBuf::parse", "src/row/borrowed.rs: Display for Row"]}
{"id": "C09", "title": "Named rows are what they say", "statement": "rounds(stage), backrounds(stage) and queens(stage) are valid rows: place i of rounds is bell i, of backrounds bell n-1-i, and queens is the odd bells ascending followed by the even bells ascending; is_rounds and is_backrounds hold exactly of these rows.", "quantifier": "every stage and every row", "why_tests_cant": "Unbounded stages.", "anchors": ["src/row/owned.rs: RowBuf::rounds, RowBuf::backrounds, RowBuf::queens", "src/row/borrowed.rs: Row::is_rounds, Row::is_backrounds"]}
{"id": "C10", "title": "Row multiplication is permutation composition", "statement": "For rows of the same stage, a*b is a valid row whose place i holds a[b[i]]; the product is associative with rounds as two-sided identity; the checked product fails with IncompatibleStages exactly when the stages differ, reporting both stages; all multiplication entry points agree.", "quantifier": "every pair/triple of rows of every stage", "why_tests_cant": "n!^3 triples per stage, for all stages.", "anchors": ["src/row/borrowed.rs: Row::mul_result, Row::mul_unchecked, Row::mul_into, Row::mul_into_unchecked, Row::mul_into_row, Row::mul_into_row_unchecked, impl Mul"]}
{"id": "C11", "title": "Row inverse is the group inverse", "statement": "r * !r = !r * r = rounds, !!r = r, !(a*b) = !b * !a, place_of(b) in r is the place given by !r; inv, inv_into and inv_into_buf always produce the same row whatever the buffers contained before.", "quantifier": "every row of every stage and every previous buffer content", "why_tests_cant": "All permutations and all prior buffer states.", "anchors": ["src/row/borrowed.rs: Row::inv, Row::inv_into, Row::inv_into_buf, Row::place_of, impl Not"]}
{"id": "C12", "title": "Solving row equations", "statement": "solve_ax_equals_b(a,b) is the only x with a*x = b and solve_xa_equals_b(a,b) is the only x with x*a = b.", "quantifier": "every pair of rows of the same stage", "why_tests_cant": "Uniqueness quantifies over all rows x.", "anchors": ["src/row/borrowed.rs: Row::solve_ax_equals_b, Row::solve_xa_equals_b"]}
{"id": "C13", "title": "Row powers", "statement": "pow_u(n) is the n-fold product and pow_i(n) satisfies the exponent laws, with negative exponents being powers of the inverse.", "quantifier": "every row and every integer exponent", "why_tests_cant": "Unbounded exponents.", "anchors": ["src/row/borrowed.rs: Row::pow_u, Row::pow_i"]}
{"id": "C14", "title": "Row parity is the sign of the permutation", "statement": "parity() terminates on every valid row and equals the sign of the permutation (hence is multiplicative, invariant under inverse, and flips on every swap of two different places).", "quantifier": "every row of every stage", "why_tests_cant": "Termination and correctness of an in-place sorting loop over all permutations.", "anchors": ["src/row/borrowed.rs: Row::parity, Row::swap"]}
{"id": "C15", "title": "Effective stage and fixed bells", "statement": "effective_stage is the smallest stage such that every bell beyond it is in its home place; fixed_bells is exactly the set of bells in their home place, in ascending order.", "quantifier": "every row", "why_tests_cant": "Ranges over all rows.", "anchors": ["src/row/borrowed.rs: Row::effective_stage, Row::fixed_bells"]}
{"id": "C16", "title": "Closure of a row is its cyclic group", "statement": "closure() terminates and lists r, r^2, ..., rounds without repetition; closure_from_rounds() lists rounds, r, r^2, ... without repetition; both have length equal to the order of the row.", "quantifier": "every row of every stage", "why_tests_cant": "Order of a permutation is unbounded (grows with Landau's function); termination is part of the claim.", "anchors": ["src/row/borrowed.rs: Row::closure, Row::closure_from_rounds"]}
{"id": "C17", "title": "Cartesian products of row sets", "statement": "multi_cartesian_product of sets S1..Sk (k>0) returns exactly the products s1*s2*...*sk with si in Si, one per choice of factors, or IncompatibleStages iff the rows of the sets before the first empty set do not all share a stage (sets after an empty set are never inspected).", "quantifier": "every list of lists of rows", "why_tests_cant": "Unbounded number and size of sets.", "anchors": ["src/row/borrowed.rs: Row::multi_cartesian_product"]}
{"id": "C18", "title": "Least group containing a set of rows", "statement": "least_group_containing(S) terminates and returns exactly the subgroup of the symmetric group generated by S (non-empty S of one stage); with mixed stages it returns IncompatibleStages.", "quantifier": "every non-empty list of rows", "why_tests_cant": "A breadth-first closure whose termination and completeness must hold for every generator set.", "anchors": ["src/row/borrowed.rs: Row::least_group_containing"]}
{"id": "C19", "title": "Group test", "statement": "is_group(S) is true exactly when the set of rows is a group under composition.", "quantifier": "every set of rows", "why_tests_cant": "Quantifies over all subsets of all symmetric groups.", "anchors": ["src/row/borrowed.rs: Row::is_group"]}
{"id": "C20", "title": "Fast hash is collision-free on small stages", "statement": "fast_hash gives different values to different rows of the same stage for every stage up to 16 on 64-bit machines (9 on 32-bit, 6 on 16-bit) when arithmetic wraps; with overflow checks it returns the same value when n^n < 2^w and panics otherwise (so for every row of stage 16 on 64-bit). With wrapping arithmetic the value is, for any bells at all, the number with the bells as digits to the base of the stage, modulo 2^w.", "quantifier": "every pair of rows of stage at most 16", "why_tests_cant": "16! rows; pairwise injectivity cannot be enumerated. In a checked build the computation itself overflows at stage 16, which is part of the finding.", "anchors": ["src/row/borrowed.rs: Row::fast_hash"]}
{"id": "C21", "title": "Row accumulator computes running products", "statement": "Starting from any row, after any sequence of accumulate / pre_accumulate / set calls the total is the product those calls describe, whatever the hidden buffer held; a call rejected for its stage changes nothing.", "quantifier": "every finite sequence of operations with rows of any stage", "why_tests_cant": "Histories are unbounded and involve a hidden double buffer.", "anchors": ["src/row/accumulator.rs: RowAccumulator"]}
{"id": "C22", "title": "Every row reachable through the safe row API is a valid row", "statement": "Starting from constructors, any sequence of safe row operations (products, inverse, powers, swap, extend_to_stage, overwrite_from, copies, permuting by place notation) only ever yields valid rows.", "quantifier": "every finite program built from the modelled safe row operations", "why_tests_cant": "An invariant over all operation sequences, on which unsafe indexing elsewhere depends.", "anchors": ["src/row/owned.rs: RowBuf::extend_to_stage, RowBuf::overwrite_from", "src/row/borrowed.rs: Row::swap, Row::copy_into", "src/place_not.rs: PlaceNot::permute"]}
{"id": "C23", "title": "SameStageVec behaves like a list of rows", "statement": "push, pop, extend, extend_from_buf, split, get, first, last, iteration (from both ends) and indexing on a SameStageVec behave exactly like the same operations on a plain list of rows of that stage; rejected operations (wrong stage) leave the vector unchanged.", "quantifier": "every finite history of operations", "why_tests_cant": "Refinement from a flat bell buffer to a list of rows over all histories.", "anchors": ["src/row/same_stage_vec.rs: SameStageVec"]}
{"id": "C24", "title": "Bulk transposition of stored rows", "statement": "pre_multiply replaces each stored row r by t*r, extend_transposed/extend_range_transposed append t*r for each selected row of the other vector, and extend_transposed_from_within does so for its own rows; path_of(bell) lists the place of the bell in each row.", "quantifier": "every vector, row and range", "why_tests_cant": "Flat-buffer index arithmetic over all ranges and stages; includes the unchecked stage of the other vector.", "anchors": ["src/row/same_stage_vec.rs: pre_multiply, pre_multiplied, extend_transposed, extend_range_transposed, extend_transposed_from_within, path_of"]}
{"id": "C25", "title": "Parsing a table of rows", "statement": "SameStageVec::parse returns the rows of the lines in order when every line is a row of the stage of the first line, and otherwise an error naming the first offending line; it never panics.", "quantifier": "every string", "why_tests_cant": "All strings, including the empty one on which the implementation panics.", "anchors": ["src/row/same_stage_vec.rs: SameStageVec::parse, ParseError"]}
{"id": "C26", "title": "Blocks keep one annotation per row plus a leftover row", "statement": "Every annotated block built with the safe API has exactly one more row than annotations and at least one row, and every row is valid and of the block's stage.", "quantifier": "every finite history of block operations", "why_tests_cant": "Invariant over all histories; extend_range breaks it for strict sub-ranges.", "anchors": ["src/block.rs: AnnotBlock constructors, extend, extend_range, extend_from_within, split, pre_multiply"]}
{"id": "C27", "title": "Extending a block composes blocks", "statement": "a.extend(b) has a's rows followed by b's rows premultiplied by a's leftover row, its leftover is the product (suitably b normalised to start from rounds), annotations are concatenated, and extension is associative; on a stage mismatch the block is unchanged.", "quantifier": "all blocks of all lengths and stages", "why_tests_cant": "Universally quantified algebraic law.", "anchors": ["src/block.rs: AnnotBlock::extend, extend_range, extend_from_within"]}
{"id": "C28", "title": "Splitting and rejoining a block", "statement": "split(i) succeeds exactly when 0 <= i <= len, both parts meet in the same row, and concatenating rows and annotations of the parts gives back the block.", "quantifier": "all blocks and all split points", "why_tests_cant": "All blocks, all indices.", "anchors": ["src/block.rs: AnnotBlock::split", "src/utils.rs: split_vec"]}
{"id": "C29", "title": "Repeat iterator yields the infinite course", "statement": "The k-th item of repeat_iter(start) (for a block of length n) is start * L^(k / n) * row(k mod n) with annotation k mod n, where L is the block's leftover row.", "quantifier": "every block, start row and index k", "why_tests_cant": "An infinite iterator.", "anchors": ["src/block.rs: AnnotBlock::repeat_iter, RepeatIter"]}
{"id": "C30", "title": "Place notation parsing", "statement": "PlaceNot::parse succeeds exactly when the explicitly given places can be completed by the implicit lead/lie rule; the parsed places are sorted, distinct, within the stage, are the given places plus the place between two given places that are two apart, plus an implicit lead place and lie place exactly where an odd number of bells would be left over, so each gap is of even length; error values are true of the input and the result does not depend on the order of characters.", "quantifier": "every string and stage", "why_tests_cant": "Infinite inputs, several error conditions.", "anchors": ["src/place_not.rs: PlaceNot::parse, PlaceNot::from_sorted_slice, PlaceNot::cross, PlaceNot::is_cross, ParseError"]}
{"id": "C31", "title": "A place notation is an involution of adjacent swaps", "statement": "For every parsed place notation, permute swaps exactly the adjacent pairs between places: it leaves bells in listed places, moves every other bell by exactly one place, applying it twice restores the row, and permute(row) = row * transposition.", "quantifier": "every place notation and every row of its stage", "why_tests_cant": "All place notations of all stages.", "anchors": ["src/place_not.rs: PlaceNot::permute, permute_unchecked, permute_new, transposition, contains, has_internal_places"]}
{"id": "C32", "title": "Recovering place notation between rows", "statement": "pn_between(a,b) returns a place notation p exactly when some place notation takes a to b, and then p is that (unique) one.", "quantifier": "every pair of rows of the same stage", "why_tests_cant": "Soundness and completeness over all pairs of permutations.", "anchors": ["src/place_not.rs: PlaceNot::pn_between"]}
{"id": "C33", "title": "Displaying and re-parsing place notation", "statement": "PlaceNot::parse(pn.to_string(), stage) = Ok(pn) for stages up to 33, and has_internal_places is true exactly when some place other than lead and lie is made.", "quantifier": "every place notation", "why_tests_cant": "All place notations of all nameable stages.", "anchors": ["src/place_not.rs: Display for PlaceNot, PlaceNot::parse, has_internal_places"]}
{"id": "C34", "title": "Place notation block syntax", "statement": "PnBlock::parse of place notations joined by delimiters gives those changes in order; a comma-separated block made of parts p1,p2,... is the concatenation of each part unfolded symmetrically (palindrome about its last change) unless it starts with '+'; it is never empty.", "quantifier": "all sequences of changes and all part lists", "why_tests_cant": "Unbounded syntax.", "anchors": ["src/place_not.rs: PnBlock::parse, parse_asym_block, CharMeaning"]}
{"id": "C35", "title": "Place notation block errors point at the problem", "statement": "Error positions reported by PnBlock::parse are byte positions of the offending text inside the given string.", "quantifier": "every erroneous string", "why_tests_cant": "All erroneous strings; the implementation gets the offsets wrong after the first comma.", "anchors": ["src/place_not.rs: PnBlock::parse, parse_asym_block, PnBlockParseError"]}
{"id": "C36", "title": "Place notation blocks generate true change-ringing rows", "statement": "to_block/to_block_from_rounds of a block of n changes has n+1 rows starting at the given row, consecutive rows differ by exactly the corresponding change (so every bell moves at most one place), and from_vec/from_iter reject exactly empty and mixed-stage lists.", "quantifier": "every place notation block and start row", "why_tests_cant": "Unbounded block lengths.", "anchors": ["src/place_not.rs: PnBlock::to_rows, to_block, to_block_from_rounds, from_vec, from_iter, len, stage"]}
{"id": "C37", "title": "Mask matching", "statement": "A mask matches a row exactly when they have the same stage and every specified place holds the specified bell; full_row(r) matches only r, empty matches all rows, fix keeps exactly the given bells home; as_row returns the row iff all places are given.", "quantifier": "every mask and row", "why_tests_cant": "All masks, all rows.", "anchors": ["src/mask.rs: Mask::matches, full_row, empty, fix_bells, fix, as_row, unspecified_places, is_empty, place_of"]}
{"id": "C38", "title": "Mask order, compatibility and combination agree with the sets of rows matched", "statement": "is_subset_of(a,b) iff every row matched by a is matched by b; is_compatible_with(a,b) iff some row is matched by both; combine(a,b) matches exactly the rows matched by both and is None iff there are none.", "quantifier": "every pair of valid masks", "why_tests_cant": "A semantic statement over all rows matched by all masks; the implementation is incomplete for masks with exactly one open place.", "anchors": ["src/mask.rs: Mask::is_subset_of, is_compatible_with, combine"]}
{"id": "C39", "title": "Transposing masks", "statement": "Row*Mask and Mask*Row commute with matching: (t*m) matches t*r iff m matches r, and (m*t) matches r*t iff m matches r.", "quantifier": "every mask, row and transposition of one stage", "why_tests_cant": "All triples.", "anchors": ["src/mask.rs: impl Mul<&Row> for &Mask, impl Mul<&Mask> for &Row"]}
{"id": "C40", "title": "Masks are always well-formed", "statement": "Every mask obtained from the safe API specifies each bell at most once and only bells of its stage, and no safe mask operation panics; set_bell rejects a bell already placed elsewhere and otherwise changes exactly one place.", "quantifier": "every string and every history of set_bell calls", "why_tests_cant": "Invariant over all inputs and histories; Mask::parse violates it, letting as_row build an invalid Row.", "anchors": ["src/mask.rs: Mask::parse, set_bell, set_bell_unchecked, stage, as_row"]}
{"id": "C41", "title": "Regex matching is language membership", "statement": "Regex::matches(row) is true exactly when the row can be cut into pieces matching the elements in turn (a bell matches itself, 'x' any one bell, '*' any sequence); it never panics for parsed or from_vec regexes.", "quantifier": "every regex and every row", "why_tests_cant": "All regexes and rows; the matcher is a hand-written backtracking loop with greedy globs.", "anchors": ["src/music.rs: Regex::matches, run_match, Regex::parse, Regex::from_vec"]}
{"id": "C42", "title": "Regex normalisation preserves meaning", "statement": "Normalising a regex never changes which rows it matches, is idempotent, and leaves neither adjacent globs nor a wildcard after a glob.", "quantifier": "every regex", "why_tests_cant": "All element sequences.", "anchors": ["src/music.rs: Regex::normalise"]}
{"id": "C43", "title": "Pattern matches report places", "statement": "match_pattern returns, for a matching row, exactly the places of the bells named by the regex, in ascending order; it is None exactly when the row does not match; it never panics for parsed or from_vec regexes.", "quantifier": "every regex and row", "why_tests_cant": "All pairs.", "anchors": ["src/music.rs: Regex::match_pattern"]}
{"id": "C44", "title": "Run regexes", "statement": "runs_front/runs_back/all_runs/runs_front_or_back(stage,len) match exactly the rows with an ascending or descending run of len consecutive bells at the front / back / anywhere / either end.", "quantifier": "every stage, every run length and every row", "why_tests_cant": "All stages, lengths and rows.", "anchors": ["src/music.rs: Regex::runs_front, runs_back, all_runs, runs_front_or_back, runs"]}
{"id": "C45", "title": "Counting matching rows", "statement": "num_matching_rows(stage) is the number of rows of the stage which match the regex.", "quantifier": "every regex and stage", "why_tests_cant": "Counting over n! rows; the implemented formula is wrong for wildcards.", "anchors": ["src/music.rs: Regex::num_matching_rows", "src/utils.rs: choice"]}
{"id": "C46", "title": "Masks and regexes agree", "statement": "A mask converted to a regex matches exactly the same rows of the mask's stage.", "quantifier": "every mask and row", "why_tests_cant": "All masks and rows.", "anchors": ["src/mask.rs: impl From<Mask> for Regex", "src/music.rs: Regex::matches"]}
{"id": "C47", "title": "Utility functions", "statement": "choice(n,k) is the binomial coefficient whenever it does not overflow; clamp_range denotes the same indices as the given bounds, with a missing upper bound meaning the length; split_vec splits at an index and fails exactly beyond the end; run_len of a non-empty sequence of distinct bells is the length of its longest initial rising or falling run of consecutive bells.", "quantifier": "all integers, ranges and lists", "why_tests_cant": "Unbounded arithmetic.", "anchors": ["src/utils.rs: choice, clamp_range, split_vec, run_len"]}
{"id": "C48", "title": "Plain course of a method", "statement": "plain_course terminates for every non-empty lead starting from rounds; it has lead_len * order(lead head) rows; its k-th row is row_in_plain_course(k), annotated by the sub-lead index k mod lead_len and the label there; rounds is its left-over row and the head of no lead but the first. For other leads it terminates exactly when repeating the transposition of the lead reaches rounds.", "quantifier": "every method and index", "why_tests_cant": "Unbounded iteration; two independent implementations must agree.", "anchors": ["src/method/mod.rs: Method::plain_course, row_in_plain_course, row_in_plain_lead, lead_head, lead_len"]}
{"id": "C49", "title": "Method labels", "statement": "Setting a label at an index makes get_label return it, leaves other labels alone, and label_indices(l) lists exactly the indices carrying l in ascending order; out-of-range indices are rejected; with_lead_end labels the last row of the lead LE and set_lead_end_label the first one.", "quantifier": "every method and every sequence of label updates", "why_tests_cant": "All histories of label updates.", "anchors": ["src/method/mod.rs: Method::set_label, get_label, label_indices, set_lead_end_label, with_lead_end"]}
{"id": "C50", "title": "Lead-head cycles partition the working bells", "statement": "In classification every bell is in exactly one cycle of the lead head; hunt bells are exactly the bells fixed by the lead head, and a method is a Principle exactly when it has none.", "quantifier": "every lead", "why_tests_cant": "All permutations as lead heads.", "anchors": ["src/method/class.rs: FullClass::classify, cycles_from_lead, partition_cycles, is_hunt"]}
{"id": "C51", "title": "Classification decisions", "statement": "classify never panics for a block generated from place notation; Little is reported exactly when no principal hunt bell visits every place of the stage; Differential exactly when working bells fall in cycles of more than one length; palindromic hunt path detection is exact; Surprise / Delight / Treble Bob are decided by the internal places made when the treble crosses between dodging positions.", "quantifier": "every place-notation lead of every stage", "why_tests_cant": "Decision logic over all leads.", "anchors": ["src/method/class.rs: classify, classify_hunt_cycle, sub_classify_treble_dodging, sub_classify_plain, is_palindromic"]}
{"id": "C52", "title": "Class and title strings", "statement": "The class name is assembled as [Jump] [Differential] [Little] class words in that order, and different classes have different names; generate_title joins name, class words (without Little and the class for principles and hybrids) and stage with single spaces and no leading, trailing or double spaces unless the name has some.", "quantifier": "every name, class and stage up to 22", "why_tests_cant": "All names.", "anchors": ["src/method/class.rs: FullClass::fmt_name", "src/method/mod.rs: generate_title"]}
{"id": "C53", "title": "Method library lookup ignores case", "statement": "get_by_title finds a method exactly when the library has one with the same title up to case, returning its name, class and place notation parsed at its stage.", "quantifier": "every library and title", "why_tests_cant": "All libraries and titles.", "anchors": ["src/method_lib/mod.rs: MethodLib::get_by_title, get_by_title_option"]}
{"id": "C54", "title": "Method library suggestions", "statement": "When a title is not found the suggestions are the closest titles of the library, sorted by edit distance, at most the requested number, and never drop a title that is strictly closer than one returned.", "quantifier": "every library, title and limit", "why_tests_cant": "All libraries.", "anchors": ["src/method_lib/mod.rs: get_by_title_with_suggestions, generate_suggestions"]}
{"id": "C55", "title": "Method library serialisation round-trips", "statement": "from_json(to_json(lib)) gives back the same lookups for every library whose stages have names.", "quantifier": "every library", "why_tests_cant": "All libraries.", "anchors": ["src/method_lib/lib_serde.rs", "src/method_lib/mod.rs: to_json, from_json"]}
{"id": "C56", "title": "Calls transpose the lead end", "statement": "The transposition of a lead-end bob or single is the effect of its place notation: it takes every row at which the call starts to the row where it ends; the call covers and adds as many rows as there are changes, and its effective stage is the least one beyond which no change moves a bell.", "quantifier": "every place notation block and start row", "why_tests_cant": "All place notation blocks.", "anchors": ["src/call.rs: Call"]}
{"id": "C57", "title": "Indexing past the end is detected", "statement": "SameStageVec::get(i) is None for every i >= len.", "quantifier": "every vector and every machine index", "why_tests_cant": "Index arithmetic may wrap for huge indices.", "anchors": ["src/row/same_stage_vec.rs: SameStageVec::get, get_range_of_row"]}
{"id": "C58", "title": "Masks can be read back from their text", "statement": "Parsing the text of a mask gives back the mask.", "quantifier": "every well-formed mask of at most 33 bells", "why_tests_cant": "All masks; larger bells have names which are not read back.", "anchors": ["src/mask.rs: impl Display for Mask, Mask::parse"]}
{"id": "C59", "title": "Regexes can be read back from their text", "statement": "Parsing the text of a normalised regex gives back the regex.", "quantifier": "every normalised regex naming only bells with one-character names", "why_tests_cant": "All element sequences.", "anchors": ["src/music.rs: impl Display for Regex, Regex::parse"]}
{"id": "C60", "title": "Number of rows of a mask", "statement": "A well-formed mask with k open places is matched by exactly k! rows of its stage.", "quantifier": "every well-formed mask", "why_tests_cant": "Counting over n! rows.", "anchors": ["src/mask.rs: Mask::matches, Mask::unspecified_places"]}
{"id": "C61", "title": "Methods from place notation text", "statement": "from_place_not_string rejects a text with the error PnBlock::parse gives, and otherwise returns the method whose lead is rung by the changes read, starting from rounds, with the class and title of that lead and no labels.", "quantifier": "every name, text and stage up to 22 bells", "why_tests_cant": "All texts.", "anchors": ["src/method/mod.rs: Method::from_place_not_string, with_name, with_lead_end"]}
{"id": "C62", "title": "Effective stage of a block", "statement": "The effective stage of a block is the least stage such that in every row, including the left-over one, the bells above it are in their own places.", "quantifier": "every block", "why_tests_cant": "All blocks.", "anchors": ["src/block.rs: AnnotBlock::effective_stage"]}
{"id": "C63", "title": "Reading a method library never panics", "statement": "from_json returns a library or an error for every JSON text; it never panics.", "quantifier": "every JSON value", "why_tests_cant": "All JSON values; unknown classes, zero bells and missing titles of many bells do panic.", "anchors": ["src/method_lib/mod.rs: MethodLib::from_json", "src/method_lib/lib_serde.rs: From<MethodLibSerde> for MethodLib, from_class_id"]}
{"id": "C64", "title": "No undefined behaviour in safe programs", "statement": "No sequence of calls of safe functions of the crate accesses memory out of bounds: the unchecked access of SameStageVec::pre_multiply (and so AnnotBlock::pre_multiply) is always within the row.", "quantifier": "every program: every sequence of safe calls making and changing rows, masks, vectors and blocks", "why_tests_cant": "All histories of calls across four types; the faulty ones need a particular combination of steps.", "anchors": ["src/row/same_stage_vec.rs: SameStageVec::pre_multiply", "src/row/borrowed.rs: Row::get_bell_unchecked", "src/mask.rs: Mask::as_row", "src/block.rs: AnnotBlock::pre_multiply"]}
{"id": "C65", "title": "The cached library survives crashes", "statement": "Whatever crashed or failed before, cc_lib() returns a library only if the server sent it in full, now or to an earlier call; it panics only on what the server sends now, and returns None only if the server sends no library now. A cut-short cache is repaired by the next call that can; once saved, the library is returned without the server.", "quantifier": "every history of calls one after the other, each ending or crashing at any system call, with any replies, failures and short writes, starting without a cache", "why_tests_cant": "Crash points, partial writes and histories of calls.", "anchors": ["src/method_lib/mod.rs: MethodLib::cc_lib, load_cc_lib_from_cache, fetch_cc_lib, cache_file_path"]}
{"id": "C66", "title": "The cached library survives concurrent calls", "statement": "When several processes call cc_lib() at the same time, every one returns a library that the server sent in full, or None if it could not reach the server.", "quantifier": "every schedule of the system calls of any number of processes, with crashes and failures anywhere", "why_tests_cant": "All schedules; two processes that save different versions can mix them up in the file.", "anchors": ["src/method_lib/mod.rs: MethodLib::cc_lib, load_cc_lib_from_cache, fetch_cc_lib"]}
{"id": "C67", "title": "JSON format of method libraries", "statement": "from_json accepts exactly the documented JSON: fields in any order, unknown fields ignored, flags defaulting to false, titles optional, repeated fields rejected, and structs also written as arrays of their fields. All JSON for the same groups gives the same library; anything else gives an error.", "quantifier": "every JSON value", "why_tests_cant": "All JSON values.", "anchors": ["src/method_lib/mod.rs: MethodLib::from_json", "src/method_lib/lib_serde.rs: MethodLibSerde, MethodGroup, CompactMethodSerde"]}
{"id": "C68", "title": "Error messages", "statement": "Every error returned by the parsers of place notation can be formatted without a panic; the number of bells quoted for an ambiguous gap is the number of places inside it; and different errors (about rows, stages, vectors of rows, blocks and place notation) have different messages, up to where the offending text ends.", "quantifier": "every text and stage; every pair of errors about stages that exist", "why_tests_cant": "All errors; the message about a gap subtracts twice, and ambiguity of messages is a statement about pairs.", "anchors": ["src/row/errors.rs: Display", "src/stage.rs: Display for IncompatibleStages", "src/row/same_stage_vec.rs: Display for ParseError", "src/block.rs: Display for ParseError", "src/place_not.rs: Display for ParseError, PnBlockParseError, InvalidPnBlockError"]}
{"id": "C69", "title": "Texts identify values", "statement": "Two rows (masks, regexes, place notations of one stage, stages) with the same text are equal, on any number of bells. The debugging texts of vectors of rows and of blocks identify them too.", "quantifier": "every pair of values", "why_tests_cant": "A statement about all pairs; bells from 34 on have names of several characters.", "anchors": ["src/row/borrowed.rs: Display for Row", "src/mask.rs: Display for Mask", "src/music.rs: Display for Regex", "src/place_not.rs: Display for PlaceNot", "src/stage.rs: Display, Debug for Stage", "src/row/same_stage_vec.rs: Debug for SameStageVec", "src/block.rs: Debug for AnnotBlock", "src/bell.rs: Bell::name"]}
{"id": "C70", "title": "Order of rows", "statement": "Rows are totally ordered, consistently with equality: between rows of a stage the first place where they differ decides, rounds is the least row and backrounds the greatest.", "quantifier": "every row", "why_tests_cant": "Orders are statements about all pairs and triples of rows.", "anchors": ["src/row/borrowed.rs: Ord for Row", "src/row/owned.rs: Ord for RowBuf", "src/bell.rs: Ord for Bell"]}
{"id": "C71", "title": "Backwards and elsewhere: the same class", "statement": "A method rung backwards, or begun at any other of its changes, is classified the same: the same class, little and differential alike.", "quantifier": "every non-empty list of changes of every stage, every starting change and both directions", "why_tests_cant": "All methods; the classification looks at the lead from its first row on.", "anchors": ["src/method/class.rs: FullClass::classify, Cycle", "src/place_not.rs: PnBlock::to_block_from_rounds"]}
{"id": "C72", "title": "Upside down: the same class", "statement": "A method rung upside down, with all its places counted from the back, is classified the same: the same class, little and differential alike.", "quantifier": "every non-empty list of changes of every stage", "why_tests_cant": "All methods; cross sections are found by counting pairs of places from the lowest place of the hunt bell only.", "anchors": ["src/method/class.rs: FullClass::classify, sub_classify_treble_dodging", "src/place_not.rs: PnBlock::to_block_from_rounds"]}
{"id": "C73", "title": "At the limits of machine words", "statement": "Numbers and names of bells, sums and differences of bells and numbers, ranges of rows, powers of rows and lengths of runs are those of unbounded arithmetic on every word size, with overflow checks and without, as long as the results are machine words. At the limits: the very last bell has no number (a panic, or number 0 without checks), a range ending with the largest number panics (or is empty), sums wrap around, and the least power panics with checks and is right without them.", "quantifier": "every word size, both kinds of build, every bell, number, range, row and exponent", "why_tests_cant": "The limits are at numbers like 2^63 that tests do not use, and depend on the machine and the build.", "anchors": ["src/bell.rs: Bell::number, Bell::name, Add<usize>, Sub<usize>", "src/utils.rs: run_len, clamp_range", "src/row/borrowed.rs: Row::pow_i"]}
{"id": "C74", "title": "Reading bells and stages does not depend on the machine", "statement": "The bell or stage read from a serialised number is the same on every machine.", "quantifier": "every serialised value, every word size", "why_tests_cant": "Tests run on one machine, and do not use numbers above 2^32.", "anchors": ["src/bell.rs: BellVisitor, try_parse_bell", "src/stage.rs: StageVisitor, try_parse_stage"]}
{"id": "C75", "title": "Iterators over rows know their length", "statement": "The iterators over the rows of vectors and blocks keep the contract of iterators of known length: size_hint is the exact number of rows left, so len and going backwards through skip, take, zip, rev and enumerate work for all of them.", "quantifier": "every vector of rows, every number of rows skipped or taken", "why_tests_cant": "A statement about all combinations of adapters; the crate's own tests only use some.", "anchors": ["src/row/same_stage_vec.rs: Iter, Iterator for Iter, DoubleEndedIterator for Iter, ExactSizeIterator for Iter", "src/block.rs: AnnotBlock::rows, AnnotBlock::all_rows"]}
{"id": "C76", "title": "Parity of changes", "statement": "Ringing a change alters the parity of a row by the number of pairs it swaps, and every place is either made or swapped. So the row after a block has the parity of the number of all pairs swapped from the row before it.", "quantifier": "every piece of place notation, every block of place notation, every row of the stage", "why_tests_cant": "All blocks and all rows; the parity is found by following cycles, not by counting swaps.", "anchors": ["src/place_not.rs: PlaceNot::permute, PnBlock::to_block", "src/row/borrowed.rs: Row::parity"]}
{"id": "C77", "title": "Symmetric place notation", "statement": "Place notation written as two parts with a comma stands for each part followed by all but its last change in reverse. Changes that are the same backwards lead to a row that is its own inverse, and every path, backwards, is the path of the bell whose place it ends in. If some bell is in its own place at the end of both parts of a method, then the method is classified as one with symmetric hunt bells, never as a principle or hybrid.", "quantifier": "every pair of texts, every list of changes of every stage, every bell", "why_tests_cant": "All methods; ties parsing, unfolding, rows and classification together.", "anchors": ["src/place_not.rs: PnBlock::parse, PnBlock::to_block_from_rounds", "src/method/class.rs: FullClass::classify, is_palindromic", "src/block.rs: AnnotBlock::full_path_of"]}
{"id": "C78", "title": "Tables of rows can be read back from their text", "statement": "If the lines of a text (ended by a newline or by a carriage return and a newline, the last one perhaps by the end of the text) show rows of one stage of at most 33 bells, perhaps among characters that are not names of bells, then SameStageVec::parse gives exactly these rows; in particular the rows of any non-empty vector, displayed one per line, are read back. AnnotBlock::parse reads the same texts, with the last row left over and default annotations on the others, fails on the others with the same error, and never reports a block of length zero.", "quantifier": "All non-empty lists of rows of one stage up to 33 bells, all ways to end lines, all characters in between; all non-empty texts for blocks.", "why_tests_cant": "There are infinitely many tables and layouts; tests read a few.", "anchors": ["src/row/same_stage_vec.rs: SameStageVec::parse", "src/block.rs: AnnotBlock::parse, AnnotBlock::with_default_annots", "src/row/borrowed.rs: Display for Row"]}
{"id": "C79", "title": "Indices and ranges of rows at the limits of machine words", "statement": "With any number a machine word can hold, splitting vectors and blocks, indexing and copying ranges of rows do the same as with unbounded numbers, or panic. So vectors are only ever split between two rows, and an index or range past the end never gives rows.", "quantifier": "every vector or block of rows that fits into memory, every index and range of machine words, every word size, builds with and without overflow checks", "why_tests_cant": "The limits are at numbers like 2^64/3 that tests do not use, and depend on the machine and the build.", "anchors": ["src/row/same_stage_vec.rs: SameStageVec::split, Index<usize>, SameStageVec::extend_range_transposed, SameStageVec::extend_transposed_from_within, to_bell_range", "src/block.rs: AnnotBlock::split, AnnotBlock::get_annot_row"]}
{"id": "C80", "title": "What a caught panic leaves behind", "statement": "If a call that changes a vector of rows or a block in place panics, and the panic is caught, then the vector or block is as it was before the call. If code of the caller panics (the iterator given to SameStageVec::extend, or Clone of an annotation), what is left is at least a valid vector or block.", "quantifier": "every vector and block, every range and argument, every panic of the iterator or of Clone, at every point", "why_tests_cant": "A statement about every point at which a call can be cut off; tests do not look at objects after a panic.", "anchors": ["src/row/same_stage_vec.rs: SameStageVec::extend, SameStageVec::extend_range_transposed, SameStageVec::extend_transposed_from_within", "src/block.rs: AnnotBlock::extend, AnnotBlock::extend_range, AnnotBlock::extend_from_within"]}
{"id": "C81", "title": "Counting matching rows at the limits of machine words", "statement": "Regex::num_matching_rows returns None if any part of the computation overflows, as documented: in no build a wrong number or a panic.", "quantifier": "every regex that fits into memory, every stage, every word size, builds with and without overflow checks", "why_tests_cant": "Overflow starts at numbers of rows tests do not count; in release builds wrong numbers are silent.", "anchors": ["src/music.rs: Regex::num_matching_rows", "src/utils.rs: choice"]}
{"id": "C82", "title": "Exactly when calls panic", "statement": "Every public function that can panic at all does so exactly in the cases listed, a condition on its arguments alone (such as a place or row that does not exist, the operator * on different stages, the empty text given to SameStageVec::parse, a mask without places, a method on more than 22 bells); all other calls return. No call runs forever, except the plain course of a method whose lead does not start from rounds and never comes round.", "quantifier": "every call of the functions about bells, stages, rows, vectors of rows, blocks, place notation, calls, masks, regexes, methods and libraries, with all arguments that safe code can make", "why_tests_cant": "That all other arguments never panic is a statement about all arguments; tests try a few. The documentation mentions only some of the panics.", "anchors": ["src/row/borrowed.rs", "src/row/owned.rs", "src/row/same_stage_vec.rs", "src/block.rs", "src/place_not.rs", "src/mask.rs", "src/music.rs", "src/method/mod.rs", "src/method/class.rs", "src/method_lib/mod.rs", "src/method_lib/lib_serde.rs"]}
{"id": "C83", "title": "Unsafe functions called as their documentation allows", "statement": "If the condition under Safety in the documentation of an unsafe function holds, then the call gives what the checked function gives (the same row, vector, place notation, block, regex or mask), and what it makes is valid, so that safe code can go on with it.", "quantifier": "every unsafe function about rows, vectors of rows, place notation, regexes and masks; all arguments that satisfy the documented condition", "why_tests_cant": "A condition on arguments is enough only if it is enough for all of them; tests cannot see that a documented condition has a gap.", "anchors": ["src/row/borrowed.rs: Row::get_bell_unchecked, Row::mul_unchecked, Row::mul_into_unchecked, Row::mul_into_row_unchecked, Row::tranposition_to_unchecked, Row::from_slice_unchecked", "src/row/owned.rs: RowBuf::from_vec_unchecked, RowBuf::from_bell_iter_unchecked", "src/row/same_stage_vec.rs: SameStageVec::from_bell_vec_unchecked", "src/place_not.rs: PlaceNot::from_sorted_slice, PlaceNot::permute_unchecked, PlaceNot::permute_new_unchecked, PnBlock::from_vec_unchecked", "src/music.rs: Regex::from_vec_unchecked", "src/mask.rs: Mask::set_bell_unchecked, Mask::fix_unchecked"]}
{"id": "C84", "title": "Runs are counted once", "statement": "For runs of at least two bells: of the regexes of Regex::runs_front (or runs_back) exactly one matches a row that has such a run on the front (back) and none any other row; of those of all_runs as many match as the row has places where such a run starts. num_matching_rows of each regex of runs_front and runs_back is the number (n - len)! of rows it matches, so that 2 (n - len + 1) (n - len)! rows have a run on the front. The length of the run on the front or back by run_len is the greatest length for which some regex matches.", "quantifier": "all stages, all run lengths, all rows", "why_tests_cant": "The number of rows grows like a factorial; tests count on few bells.", "anchors": ["src/music.rs: Regex::runs_front, Regex::runs_back, Regex::all_runs, Regex::num_matching_rows", "src/utils.rs: run_len"]}
{"id": "C85", "title": "Rows and place notation determine each other", "statement": "The rows that PnBlock::to_rows rings from any row give back the place notation: PlaceNot::pn_between of each two consecutive rows is the next place notation of the block. Conversely, if there is a place notation between all consecutive rows of a list, they make a PnBlock which rings exactly this list. So blocks that ring the same rows are equal, and a list with a jump is rung by none.", "quantifier": "all blocks of place notation, all starting rows, all lists of rows of one stage", "why_tests_cant": "Both directions are about all sequences of changes of any length.", "anchors": ["src/place_not.rs: PlaceNot::pn_between, PnBlock::to_rows, PnBlock::from_vec"]}
{"id": "C86", "title": "The functions about groups of rows fit together", "statement": "Row::closure of a row passes is_group and has the same rows as least_group_containing of that row. The result of least_group_containing passes is_group, contains the given rows, and is contained in every set that does. A set is a group by is_group exactly when it is the least group containing itself. Sizes obey Lagrange: they divide n!, and the size of the closure of each member divides the size of the group.", "quantifier": "all rows, all non-empty sets of rows of one stage", "why_tests_cant": "Relates results over all sets of rows; tests compare a few groups on few bells.", "anchors": ["src/row/borrowed.rs: Row::closure, Row::least_group_containing, Row::is_group"]}
{"id": "C87", "title": "Importing the Central Council's XML file", "statement": "parse_cc_lib of a file of the documented form gives a library of exactly the methods in it, with their stages, titles, names, classes and place notation (of methods with the same stage and title the last one); on all other input it panics. Written with to_json and read with from_json, every method of the file whose title ends in the name of its stage is found by its title, in any case, provided no two titles of a stage differ only in case. The same lookups succeed in the imported library itself.", "quantifier": "all XML trees, all files of the documented form, all titles", "why_tests_cant": "Files have thousands of methods and any order, extra elements and attributes; whether every method is found afterwards needs all titles.", "anchors": ["src/method_lib/parse_cc_lib.rs: parse_cc_lib, read_methods, read_properties", "src/method_lib/mod.rs: MethodLib::to_json, MethodLib::from_json, MethodLib::get_by_title"]}
{"id": "C88", "title": "Parity, coming round and repeated rows", "statement": "The i-th row of PnBlock::to_rows has the parity of the start row plus the number of pairs of bells swapped before it. So a block whose last row is its first swaps an even number of pairs altogether, and if every change swaps an even number of pairs, a block longer than half an extent contains a row twice.", "quantifier": "all blocks of place notation, all start rows, all stages, all positions", "why_tests_cant": "Statements about all blocks of any length; the last one is a counting argument over an extent.", "anchors": ["src/parity.rs: Parity", "src/row/borrowed.rs: Row::parity", "src/place_not.rs: PnBlock::to_rows", "src/row/same_stage_vec.rs: SameStageVec::get"]}
{"id": "C89", "title": "Rows and other values as keys of hash sets", "statement": "What Hash writes for a bell, stage, parity, row, vector of rows, block, place notation, block of place notation, mask, regex or full class identifies the value, even when more is hashed after it. RowBuf and Row keep the contract of Borrow: same hash, same equality. So a hash set of rows with any hasher and any growth holds exactly the rows put in, each once, and can be asked for borrowed rows. Run on such sets, least_group_containing returns exactly the rows of the group generated, and is_group says whether the rows form a group, also when they are given several times and in any order; rows of different stages give an error.", "quantifier": "all hash functions, all policies of resizing, all values, all lists of rows", "why_tests_cant": "Quantifies over hash functions (including ones where everything collides) and over table sizes; a test sees one hasher.", "anchors": ["src/row/borrowed.rs: Row::least_group_containing, Row::is_group, derive(Hash)", "src/row/owned.rs: RowBuf, Borrow<Row> for RowBuf, ToOwned for Row", "src/bell.rs: Bell", "src/stage.rs: Stage", "src/place_not.rs: PlaceNot, PnBlock", "src/mask.rs: Mask", "src/music.rs: Regex", "src/block.rs: AnnotBlock", "src/method/class.rs: FullClass"]}
{"id": "C90", "title": "The JSON text of a library", "statement": "MethodLib::to_json returns a text of the grammar of JSON (RFC 8259), and from_json of that text gives a library with exactly the same methods, whatever characters (quotation marks, backslashes, control characters, any Unicode) occur in names, titles and place notation. from_json reads exactly the texts of the grammar: a library if the text stands for one, an error otherwise; no text stands for two values. An object or array cut short is never JSON and JSON has no NUL bytes, so the guarantees about the cache of cc_lib (C65) hold for its actual file format, as does the mix-up of concurrent calls (C66).", "quantifier": "all libraries of 1 to 22 bells, all texts, all byte strings", "why_tests_cant": "Round trips must hold for all strings and nesting; tests write a few libraries with plain names.", "anchors": ["src/method_lib/mod.rs: MethodLib::to_json, MethodLib::from_json, cc_lib", "src/method_lib/lib_serde.rs: MethodLibSerde, MethodGroup, CompactMethodSerde"]}
{"id": "C91", "title": "Suggestions are the titles fewest edits away", "statement": "The edit distance reported with a suggestion is the Levenshtein distance: the least number of characters inserted, removed and replaced that turn one lower-case title into the other; it is a metric. When a title is not found, get_by_title_with_suggestions returns titles of the library with these distances, the closest first, as many as asked for (or all there are), and no title left out is fewer edits away than one returned, whichever of equally distant titles the heap inside the shortlist prefers.", "quantifier": "all pairs of strings, all libraries and titles, all numbers of suggestions above zero, all heaps that find a least item", "why_tests_cant": "Minimality quantifies over all sequences of edits, and the choice over all behaviours of the heap on ties; tests compare a few distances.", "anchors": ["src/method_lib/mod.rs: MethodLib::get_by_title_with_suggestions, MethodLib::generate_suggestions, Suggestion"]}
{"id": "C92", "title": "Bells and stages in JSON documents", "statement": "With the serde feature, a JSON text holding the name of a stage or of a bell as a string, or its number, is read by serde_json::from_str as that stage or bell; reading a text never panics; a stage that was written is read back.", "quantifier": "all texts, all stages and bells, all ways to write names and numbers in JSON", "why_tests_cant": "Which texts are read, and as what, ranges over all texts; it depends on how the format takes the deserialize_u64 hint, which unit tests of the visitors do not show.", "anchors": ["src/stage.rs: impl Serialize for Stage, impl Deserialize for Stage, StageVisitor", "src/bell.rs: impl Serialize for Bell, impl Deserialize for Bell, BellVisitor"]}
{"id": "C93", "title": "Plain hunting and Plain Bob on every stage", "statement": "For every number of bells with a stage name, the place notation of plain hunting (its two changes) makes a principle whose plain course has 2n rows, each of them the row of plain hunting, and on three bells or more all different; from four bells up, the place notation of Plain Bob makes a method of class Bob with the title '<name> Bob <stage>', whose plain course has n - 1 leads of 2n rows, the treble plain hunting, all other bells doing the same work, and no row coming twice.", "quantifier": "all stages from 2 (4 for Plain Bob) to 22, all names, all rows and bells", "why_tests_cant": "A family of inputs that grows with the stage, through the whole way from text to parsed changes, rows, class, title and plain course; unit tests fix single stages.", "anchors": ["src/method/mod.rs: Method::from_place_not_string, Method::plain_course, Method::row_in_plain_course, generate_title", "src/method/class.rs: FullClass::classify", "src/place_not.rs: PnBlock::parse, PnBlock::to_block_from_rounds", "src/row/borrowed.rs: Row::place_of"]}
{"id": "C94", "title": "The documented running times", "statement": "Regex::matches and match_pattern read each element of the regex and each bell of the row at most once (O(n + m), as documented); Row::parity takes less than 2n loop iterations (linear in the stage); Row::is_group of n distinct rows makes n inversions and n^2 transpositions if they are a group and never more; least_group_containing makes one product per row of the group and given row; the search for a symmetry of a hunt path of N places makes at most N^2 comparisons.", "quantifier": "all regexes and rows, all sets of rows, all paths", "why_tests_cant": "A bound on the work for inputs of every size; tests can only time single inputs.", "anchors": ["src/music.rs: Regex::matches, Regex::match_pattern, Regex::run_match", "src/parity.rs: Parity", "src/row/borrowed.rs: Row::parity, Row::is_group, Row::least_group_containing", "src/method/class.rs: is_palindromic"]}
{"id": "C95", "title": "Allocations are reused as documented", "statement": "overwrite_from, copy_into, mul_into and inv_into_buf allocate nothing if the result fits into the row they are given, and one buffer otherwise; a RowAccumulator goes on using its two buffers, so pow_u makes two allocations for any exponent; RepeatIter::next allocates a row per call, next_into reuses the row it is given (both allocate the head of the block each time it starts again); SameStageVec::from_row_buf keeps the buffer of the row, and SameStageVec::with_capacity(stage, k) can hold k rows, through any sequence of calls, without reallocating.", "quantifier": "all rows, buffers and capacities, all sequences of calls, all builds and growth policies of vectors", "why_tests_cant": "A promise about every sequence of calls and every capacity that is not visible in results, and that fails only for sizes beyond the range of a word.", "anchors": ["src/row/owned.rs: RowBuf::overwrite_from", "src/row/borrowed.rs: Row::copy_into, Row::mul_into, Row::inv_into_buf, Row::pow_u", "src/row/accumulator.rs: RowAccumulator", "src/block.rs: RepeatIter::next, RepeatIter::next_into", "src/row/same_stage_vec.rs: SameStageVec::with_capacity, SameStageVec::from_row_buf"]}
{"id": "C96", "title": "Grandsire on every stage", "statement": "From five bells up to the last stage with a name, the place notation of Grandsire makes a method of class Bob whose plain course has n - 2 leads of 2n rows: the treble and the second bell plain hunt, every other bell is where Grandsire takes it, all of them do the same work, and no row comes twice. The title made for it contains the word Bob, which is why its usual title has to be stored separately.", "quantifier": "all stages from 5 to 22, all names, all rows and bells", "why_tests_cant": "A family of inputs with two hunt bells that grows with the stage, through the whole way from text to parsed changes, rows, class, title and plain course; unit tests fix single stages.", "anchors": ["src/method/mod.rs: Method::from_place_not_string, Method::plain_course, generate_title", "src/method/class.rs: FullClass::classify", "src/place_not.rs: PnBlock::parse, PnBlock::to_block_from_rounds"]}
{"id": "C97", "title": "Calls put into leads, and touches", "statement": "A call can be put into a lead anywhere: splitting the lead where the call starts and where what it covers ends, and extending by the block of the call and by the rest, gives the rows that the place notation with these changes replaced would give. For a method labelled at its lead end and a bob or single of one change, the place is the one found by its label, and the last change is replaced. Leads, plain or called, joined one after the other into a touch give the rows of all their changes; the touch is as long as all of them, ends with the product of the lead heads, and comes round if and only if that product is the identity.", "quantifier": "all stages (up to 22 for methods), all changes of the lead and of the call, all places and cover lengths, all sequences of leads of any length, all annotations", "why_tests_cant": "The rows depend on split, extend, transpositions and labels working together over arbitrarily long touches; unit tests do not join more than two blocks.", "anchors": ["src/block.rs: AnnotBlock::split, AnnotBlock::extend, AnnotBlock::empty, AnnotBlock::map_annots", "src/call.rs: Call::le_bob, Call::le_single, Call::block, Call::cover_len", "src/method/mod.rs: Method::with_lead_end, Method::label_indices", "src/place_not.rs: PnBlock::to_block_from_rounds"]}
{"id": "C98", "title": "Stedman on every odd stage", "statement": "From five bells up to the last odd stage with a name, the place notation of Stedman makes a method without hunt bells, a principle, whose title is its name and the name of the stage. The plain course has n leads of twelve rows: the front three bells hunt for six changes in one direction and for six in the other, the other bells dodge and move on between the sixes. All bells do the same work, and no row comes twice.", "quantifier": "all odd stages from 5 to 21, all names, all rows and bells", "why_tests_cant": "A family of inputs that grows with the stage and whose lead head is one cycle of all the bells; it goes the whole way from text to parsed changes, rows, class, title and plain course; unit tests fix single stages.", "anchors": ["src/method/mod.rs: Method::from_place_not_string, Method::plain_course, generate_title", "src/method/class.rs: FullClass::classify", "src/place_not.rs: PnBlock::parse, PnBlock::to_block_from_rounds"]}
{"id": "C99", "title": "Truth of courses and touches", "statement": "A block is true if no row is rung twice in it. Leads rung from two lead heads have no row in common exactly when the row that turns one lead head into the other (solve_ax_equals_b) is not among the false lead heads, the rows that turn a row of the one lead into a row of the other (solve_xa_equals_b). The plain course of a method is true exactly when no two rows of its first lead differ by a row of the closure of the lead head; a touch is true exactly when each lead is and no two leads of it are false against each other. A true block has at most n! rows, and n! exactly when it contains every row of its stage. Truth is what collecting the rows in a hash set and counting them, or comparing their fast_hashes (while n^n fits the word), tells.", "quantifier": "all blocks of the same stage, all lead heads, all methods whose lead starts from rounds, all touches of any leads, all hashers", "why_tests_cant": "It relates the rows of courses of any length to those of one lead, through products, inverses and closures of rows; tests can compare the rows of a few methods.", "anchors": ["src/method/mod.rs: Method::plain_course, Method::lead_head", "src/block.rs: AnnotBlock::pre_multiply, AnnotBlock::extend, AnnotBlock::rows, AnnotBlock::get_row", "src/row/borrowed.rs: Row::solve_ax_equals_b, Row::solve_xa_equals_b, Row::closure, Row::fast_hash"]}
{"id": "C100", "title": "The same call in every course", "statement": "Take any method with a labelled lead end and any call of one change for that label, put the call into one lead of the course (whichever lead it is), and ring such courses one after another: the touch has the length of as many plain courses, and it comes round after exactly as many courses as the row that turns the plain lead head into the called one (solve_ax_equals_b) has powers (closure), and otherwise only at multiples of that number. In particular Plain Bob on every stage from 4 to 22, read from its place notation, comes round after three courses with the bob 14 and after two with the single 1234.", "quantifier": "all methods made from place notation on up to 22 bells, all calls of one change at the lead end, all leads of the course, all numbers of courses; Plain Bob on all stages from 4 to 22", "why_tests_cant": "It ranges over all methods, all calls and touches of any length on every stage; a test can ring one touch of one method.", "anchors": ["src/method/mod.rs: Method::with_lead_end, Method::plain_course, Method::label_indices, Method::lead_head", "src/call.rs: Call::le_bob, Call::le_single", "src/block.rs: AnnotBlock::split, AnnotBlock::extend", "src/place_not.rs: PnBlock::parse", "src/row/borrowed.rs: Row::closure, Row::solve_ax_equals_b"]}
{"id": "C101", "title": "Courses backwards, begun elsewhere and upside down", "statement": "The plain course of a method with the changes in the opposite order has the same rows in the opposite order, and its lead head is the inverse; begun at another change it has the same rows, in the round of the course, as seen from the row where it begins; with places counted from the other end it has the same rows with bells and places counted from the other end. In each case the course is as long as before, and it is true (no row twice) exactly when it was. Exchanging the two parts of place notation with a comma reverses the changes.", "quantifier": "all non-empty lists of changes of every stage, all points to begin at, all methods with these leads whatever their names; all texts of place notation for the parts", "why_tests_cant": "It compares all rows of courses of every length on every stage.", "anchors": ["src/method/mod.rs: Method::plain_course, Method::lead_head", "src/place_not.rs: PnBlock::to_block_from_rounds, PnBlock::parse", "src/block.rs: AnnotBlock::get_row, AnnotBlock::len", "src/row/borrowed.rs: Row::inv, Mul for Row", "src/row/owned.rs: RowBuf::backrounds"]}
{"id": "C102", "title": "Kent Treble Bob on all even stages", "statement": "The method made from the place notation of Kent Treble Bob on an even stage is classified as Treble Bob, not little and not differential, and its title has the words Treble Bob and the name of the stage. Its plain course has n - 1 leads of 4n rows. The treble dodges once in every pair of places, out and in. The lead heads are those of Plain Bob in the opposite order. All other bells do the same work, one some leads after the other, and no row comes twice.", "quantifier": "all even stages from six bells to the last with a name, all names of the method", "why_tests_cant": "The rows of the whole course are compared on every stage; tests of the library know the method on one or two stages.", "anchors": ["src/method/mod.rs: Method::from_place_not_string, Method::plain_course, Method::title, Method::lead_len", "src/method/class.rs: FullClass::classify", "src/place_not.rs: PnBlock::parse", "src/row/borrowed.rs: Row::place_of"]}
{"id": "C103", "title": "Covering bells", "statement": "Adding covering bells to a row keeps all bells where they are and puts each added bell in its own place; adding in two steps is adding in one. Rows with covering bells multiply, invert, and are raised to powers as the rows without them, with the same parity and effective stage; their closures are the closures without them, with covering bells. The text of a row, read on a larger stage, is the row with covering bells. The place notation of a change with covering bells has the places of these added. A method rung with covering bells has the rows, leads and truth of the method without them. It is classified as little; plain methods keep their class and treble dodging methods remain so; methods without a hunt bell that plain hunts or dodges become Treble Place; with two or more covering bells Delight methods become Surprise.", "quantifier": "all valid rows, all stages at least as large, all lists of changes on all stages", "why_tests_cant": "The numbers of bells and of covering bells are unbounded, and the classification depends on the whole course.", "anchors": ["src/row/owned.rs: RowBuf::extend_to_stage, RowBuf::parse_with_stage", "src/row/borrowed.rs: Row::closure, Row::closure_from_rounds, Row::parity, Row::effective_stage", "src/place_not.rs: PnBlock::to_block_from_rounds", "src/method/class.rs: FullClass::classify"]}
{"id": "C104", "title": "Music of courses and touches", "statement": "Replacing each bell named by a regex by the bell which a row s has in its place, and multiplying the row by s, changes neither whether the row matches nor the places reported. So all courses of a touch that begin with some bells at home have the same music of these bells as the plain course, in the same rows. A row with its places in the opposite order matches the regex with its elements in the opposite order, and has on its back as many runs as the row has on its front; numbering the bells from the tenor keeps the number of runs. An extent has all rows that match a regex, and 2(n - len + 1)(n - len)! rows with a run of len bells on the front, and as many on the back; a true block has no more.", "quantifier": "all valid rows, all regexes (for extents: all in normal form), all well-formed blocks of all stages", "why_tests_cant": "Rows, regexes and blocks are unbounded, and extents beyond seven bells are too long to be listed in a test.", "anchors": ["src/music.rs: Regex::matches, Regex::match_pattern, Regex::from_vec, Regex::runs_front, Regex::runs_back, Regex::all_runs", "src/block.rs: AnnotBlock::pre_multiply", "src/row/owned.rs: RowBuf::backrounds"]}
{"id": "C105", "title": "Touches of Plain Bob", "statement": "Take the lead of Plain Bob on n bells as the library makes it from its place notation, and the same lead with the usual bob and with the usual single called at its end. Join any number of such leads in any order. The joining never fails and the touch has 2n rows for each lead. The treble plain hunts in all of it. The touch is true if and only if no row comes twice in which the treble leads. On 6, 10, 14, 18 and 22 bells a true touch without singles has at most half of all rows.", "quantifier": "all stages from four bells to the last with a name, all lists of plain, bobbed and singled leads", "why_tests_cant": "There are 3^k touches of k leads; a test rings one of them.", "anchors": ["src/method/mod.rs: Method::with_lead_end, Method::first_lead, Method::label_indices", "src/call.rs: Call::le_bob, Call::le_single", "src/block.rs: AnnotBlock::split, AnnotBlock::extend", "src/place_not.rs: PnBlock::parse", "src/row/borrowed.rs: Row::place_of"]}
{"id": "C106", "title": "No extent of Grandsire with bobs only", "statement": "Take the lead of Grandsire on an odd number of bells as the library makes it from its place notation, and the same lead with the usual bob (3.1 in the last two changes). Join any number of such leads in any order: the joining never fails and the touch has 2n rows for each lead. If the touch comes round and no row comes twice, then it is no extent: it has fewer than n! rows. In general, for leads of two kinds: if the first kind comes round after an odd number of leads, and so does what turns its lead head into that of the second kind, then a true touch that comes round, and to whose lead heads the first kind of lead always leads back, has an odd number of leads.", "quantifier": "all odd stages from five bells to the last with a name, all lists of plain and bobbed leads; all pairs of leads of all stages", "why_tests_cant": "The extent of Triples has 360 leads, so there are 2^360 ways to call bobs; no test can try them.", "anchors": ["src/method/mod.rs: Method::from_place_not_string, Method::first_lead, Method::lead_len", "src/call.rs: Call::le_bob, Call::cover_len, Call::block", "src/block.rs: AnnotBlock::split, AnnotBlock::extend, AnnotBlock::leftover_row", "src/place_not.rs: PnBlock::parse, PnBlock::to_block_from_rounds", "src/row/borrowed.rs: Row::is_rounds"]}
{"id": "C107", "title": "How many changes lie between two rows", "statement": "Any row is reached from any other row of the same stage by a block of place notation with exactly as many changes as there are bells. A block of place notation never takes a bell further from its place than it has changes. On three bells or more, a row and the same row backwards are not joined by fewer changes than there are bells; so the number of bells is the greatest number of changes that may be needed.", "quantifier": "all stages, all pairs of rows, all blocks of place notation", "why_tests_cant": "There are n! rows to reach and more ways to change rows than rows; a test can only try small stages.", "anchors": ["src/place_not.rs: PnBlock::to_rows, PnBlock::len, PnBlock::from_vec, PlaceNot::permute", "src/row/borrowed.rs: Row::place_of", "src/row/same_stage_vec.rs: SameStageVec::first, SameStageVec::last"]}
{"id": "C108", "title": "There is an extent on every stage, one pair of bells changing at a time", "statement": "On every stage of two bells or more there is a block of place notation in which every change swaps exactly one pair of bells and which, rung from rounds, rings every row of the stage exactly once and ends at rounds. So the greatest number of rows a true touch can have, n!, is reached on every stage.", "quantifier": "all stages of two bells or more", "why_tests_cant": "The number of rows grows as n!, so the rows can be listed on the smallest stages only.", "anchors": ["src/place_not.rs: PnBlock::to_block_from_rounds, PnBlock::len", "src/block.rs: AnnotBlock::len, AnnotBlock::get_row, AnnotBlock::leftover_row"]}
{"id": "C109", "title": "How many pairs of bells must be swapped between two rows", "statement": "If a block of place notation leads from one row to another, its changes together swap at least as many pairs as there are pairs of bells which the two rows have in a different order, and the two numbers differ by an even number. Between any two different rows of the same stage there is a block which swaps one pair at every change and has exactly that many changes. The number is at most n(n-1)/2, and reaches it if and only if one row is the other backwards.", "quantifier": "all stages, all pairs of rows of the same stage, all blocks of place notation", "why_tests_cant": "There are n! rows and endlessly many blocks between two of them; a test cannot show that none is shorter.", "anchors": ["src/place_not.rs: PnBlock::to_rows, PnBlock::len, PlaceNot::permute", "src/row/borrowed.rs: Row::place_of", "src/row/same_stage_vec.rs: SameStageVec::first, SameStageVec::last"]}
{"id": "C110", "title": "The rows that can be reached by calling Plain Bob", "statement": "On every stage from four to twenty-two bells, a touch of Plain Bob with bobs and singles can end at every row in which the treble leads, and at no other. With bobs alone the same holds on an odd number of bells; on an even number such touches end at exactly the even rows in which the treble leads. The group which the library generates from the ends of the plain, the bobbed and the singled lead has (n-1)! rows, all those in which the treble leads; the group from the plain and the bobbed lead alone has as many on an odd number of bells and half as many on an even number.", "quantifier": "all stages from 4 to 22, all touches (lists of plain, bobbed and singled leads of any length), all rows", "why_tests_cant": "On 22 bells there are 21! such rows; which of them no touch reaches cannot be found by trying touches, of which there are infinitely many.", "anchors": ["src/row/borrowed.rs: Row::least_group_containing, Row::parity, Row::place_of", "src/method/mod.rs: Method::with_lead_end, Method::first_lead, Method::label_indices", "src/call.rs: Call::le_bob, Call::le_single", "src/block.rs: AnnotBlock::split, AnnotBlock::extend, AnnotBlock::leftover_row", "src/place_not.rs: PnBlock::parse"]}
{"id": "C111", "title": "The rows that can be reached by calling Grandsire", "statement": "On every stage from five to twenty-two bells, a touch of Grandsire with the usual bobs and singles can end at every row in which the treble leads, and at no other. With bobs alone the same holds on an even number of bells; on an odd number such touches end at exactly the even rows in which the treble leads. The group which the library generates from the ends of the plain, the bobbed and the singled lead has (n-1)! rows, all those in which the treble leads; the group from the plain and the bobbed lead alone has as many on an even number of bells and half as many on an odd number. (With Plain Bob the parity of the stage is the other way round.)", "quantifier": "all stages from 5 to 22, all touches (lists of plain, bobbed and singled leads of any length), all rows", "why_tests_cant": "There are infinitely many touches and on 22 bells 21! such rows; that no touch reaches an odd row cannot be found by trying.", "anchors": ["src/row/borrowed.rs: Row::least_group_containing, Row::parity, Row::place_of", "src/method/mod.rs: Method::from_place_not_string, Method::first_lead, Method::lead_len", "src/call.rs: Call::le_bob, Call::le_single", "src/block.rs: AnnotBlock::split, AnnotBlock::extend, AnnotBlock::leftover_row", "src/place_not.rs: PnBlock::parse"]}
{"id": "C112", "title": "Touches rung in parts", "statement": "Take any block that begins with rounds and join any number of copies of it (parts) with AnnotBlock::extend. Joining never fails; row i of part q is row i of the block multiplied by the q-th power of the part end, which is the block's leftover row. The touch ends in rounds exactly when the number of parts is a multiple of the number of rows in the part end's closure. A touch of more parts than that is false, and a touch of exactly that many parts is true if and only if no row of the closure turns one row of the block into a later one. Adding the first part to the growing touch with extend_from_within, and taking rows and annotations from repeat_iter started at rounds, give the same touch.", "quantifier": "all blocks of all stages that begin with rounds, with any annotations, and all numbers of parts", "why_tests_cant": "Blocks and numbers of parts are unbounded; the truth of a long touch is reduced to comparing the rows of one part, which only a proof can justify for all of them.", "anchors": ["src/block.rs: AnnotBlock::extend, AnnotBlock::extend_from_within, AnnotBlock::repeat_iter, AnnotBlock::leftover_row, AnnotBlock::get_row, AnnotBlock::len", "src/row/borrowed.rs: Row::closure, Row::pow_u, Row::solve_xa_equals_b, Row::is_rounds"]}
{"id": "C113", "title": "Touches begun at another row", "statement": "Take any block that begins with rounds and has rounds left over, split it at any row and join the second half and the first with AnnotBlock::extend. Nothing fails, and the result is the same touch begun at that row: it has as many rows, ends in rounds, carries the annotations in the same cyclic order, and multiplying its rows by the row of the split gives the rows of the original in the same cyclic order. It is true exactly when the original is. Likewise, multiplying blocks by a row of their stage changes neither their truth nor whether they have a row in common.", "quantifier": "all blocks of all stages that begin with rounds and come round, all places to split; all blocks and all rows of their stage", "why_tests_cant": "Blocks are unbounded, and extend hides a multiplication by a quotient of rows that has to cancel at every place of every block.", "anchors": ["src/block.rs: AnnotBlock::split, AnnotBlock::extend, AnnotBlock::pre_multiply, AnnotBlock::leftover_row, AnnotBlock::get_row, AnnotBlock::get_annot", "src/row/borrowed.rs: Row::mul"]}
{"id": "C114", "title": "How many changes there are", "statement": "On n bells there are exactly as many place notations as the Fibonacci number F(n+1): 1, 2, 3, 5, 8, 13 for one to six bells. Up to 33 bells these are exactly the values that PlaceNot::parse returns for some text of that stage. From every row exactly so many different rows can be rung next (counting the row itself), and these are the rows to which PlaceNot::pn_between finds a place notation.", "quantifier": "all stages, all texts, all rows", "why_tests_cant": "The texts are infinitely many and the rows grow factorially; the count needs an induction over the stage.", "anchors": ["src/place_not.rs: PlaceNot::parse, PlaceNot::pn_between, PlaceNot::permute_new, Display for PlaceNot"]}
{"id": "C115", "title": "Repeating Queens and backrounds", "statement": "The closure of Queens on n bells has as many rows as the least k > 0 for which the odd one of n and n-1 divides 2^k - 1 (three on eight bells, ten on twelve). The inverse of Queens is Tittums: the bells of the first half stand in the odd places in order, and those of the second half in the even places. Backrounds is its own inverse and its closure is backrounds and rounds (just rounds on one bell).", "quantifier": "all stages", "why_tests_cant": "The length of the closure varies irregularly with the stage, and only an argument modulo the stage gives it for all of them.", "anchors": ["src/row/owned.rs: RowBuf::queens, RowBuf::backrounds", "src/row/borrowed.rs: Row::closure, Row::inv, Row::mul"]}
