{"id": "C01", "title": "Iterator arithmetic is exact integer arithmetic on bit addresses", "statement": "For a bit iterator `it` and any signed offset n, `it + n` designates the bit exactly n places after `it` (before it when n<0), its position() stays in [0, digits), `(it + n) - it == n`, `(it - n) + n == it`, `++it`/`--it` agree with `it + 1`/`it - 1`, and `last - first` is the number of increments from first to last.", "quantifier": "every word width, every iterator, every signed offset (positive, negative, multiples of the width or not)", "why_tests_cant": "The offset range is unbounded and the negative-offset path (truncating division plus correction) has a distinct result for each residue and sign; tests only try a few offsets.", "anchors": ["include/bitlib/bit-iterator/bit_iterator.hpp: bit_iterator::operator+, operator-, operator+=, operator-=, operator++, operator--, operator-(bit_iterator,bit_iterator)", "include/bitlib/bit-algorithms/bit_algorithm_details.hpp: distance, advance, next"]}
{"id": "C02", "title": "Iterator comparison is the total order of bit addresses", "statement": "For two bit iterators into the same sequence, ==, !=, <, <=, >, >= give exactly the comparison of the bit addresses they designate; in particular a<b iff b-a>0, and the order is total, antisymmetric and transitive.", "quantifier": "all pairs (triples) of iterators, all word widths", "why_tests_cant": "A total-order law is a statement about all pairs and triples of positions.", "anchors": ["include/bitlib/bit-iterator/bit_iterator.hpp: operator==, operator!=, operator<, operator<=, operator>, operator>="]}
{"id": "C03", "title": "Writing through a bit reference changes exactly one bit", "statement": "Assigning, set, reset, flip, &=, |=, ^= through `*it` or `it[n]` change only the designated bit, to the value of the corresponding boolean operation; every other bit of memory, including the rest of the same word, keeps its value, and reading the reference afterwards yields the new value.", "quantifier": "all word widths, all memory contents, all positions, all assigned values and operations", "why_tests_cant": "The frame condition quantifies over every other bit of memory and all contents.", "anchors": ["include/bitlib/bit-iterator/bit_reference.hpp: bit_reference::operator=, assign, operator&=, operator|=, operator^=, set, reset, flip, operator bool", "include/bitlib/bit-iterator/bit_iterator.hpp: operator*, operator[]"]}
{"id": "C04", "title": "Swapping two bit references exchanges the two bits, even when they share a word or are the same bit", "statement": "swap(ref1, ref2) exchanges the values of the two designated bits and leaves every other bit unchanged, for distinct words, distinct bits of one word, and the same bit.", "quantifier": "all memories, all pairs of positions including aliases", "why_tests_cant": "Aliasing inside one word is a corner of the pair space that random tests rarely hit, and the frame ranges over all of memory.", "anchors": ["include/bitlib/bit-iterator/bit_reference.hpp: bit_reference::swap, bit::swap overloads"]}
{"id": "C05", "title": "Bit pointers do exact address arithmetic", "statement": "For a bit pointer p, p+n designates the bit n places after p for any signed n, ++/-- agree with +1/-1 across word boundaries, (p+n)-p == n, and comparisons order pointers by bit address.", "quantifier": "every word width, position and signed offset", "why_tests_cant": "Infinitely many offsets; the mask-based ++/-- must agree with the division-based + for all positions.", "anchors": ["include/bitlib/bit-iterator/bit_pointer.hpp: bit_pointer::operator++, operator--, operator+, operator-, operator[], comparisons"]}
{"id": "C06", "title": "copy transfers exactly the source bits", "statement": "After copy(first,last,d_first): bit i of the destination range equals the value bit i of the source range had before the call, every bit outside [d_first, d_first+(last-first)) is unchanged, and d_first+(last-first) is returned. Holds for separate buffers and for overlapping ranges with d_first not inside (first,last).", "quantifier": "every word width, both alignments, every length, every contents, every admissible overlap", "why_tests_cant": "The result depends on the word width, both start offsets inside a word, the length modulo the word width and the contents; tests sample a few lengths with random contents and cannot cover the product of cases at every size.", "anchors": ["include/bitlib/bit-algorithms/copy.hpp: copy"]}
{"id": "C07", "title": "copy accesses only the words that hold its ranges", "statement": "copy(first,last,d_first) reads only words holding a bit of [first,last) or of the destination range, writes only words of the destination range, and performs no oversized shift: it has no undefined behaviour whenever both ranges are valid.", "quantifier": "every width, alignment, length and placement, including ranges ending at the end of an allocation", "why_tests_cant": "Out-of-range reads are silent in ordinary runs; only an argument about every alignment and length rules them out.", "anchors": ["include/bitlib/bit-algorithms/copy.hpp: copy", "include/bitlib/bit-algorithms/bit_algorithm_details.hpp: get_word"]}
{"id": "C08", "title": "move is copy for bits", "statement": "move(first,last,d_first) has the same effect, frame, return value and absence of undefined behaviour as copy.", "quantifier": "every width, alignments, length, contents and admissible overlap", "why_tests_cant": "The result depends on the word width, both start offsets inside a word, the length modulo the word width and the contents; tests sample a few lengths with random contents and cannot cover the product of cases at every size.", "anchors": ["include/bitlib/bit-algorithms/move.hpp: move"]}
{"id": "C09", "title": "copy_backward transfers exactly the source bits under rightward overlap", "statement": "After copy_backward(first,last,d_last): the (last-first) bits ending at d_last equal the source bits before the call, all other bits are unchanged, and d_last-(last-first) is returned; valid for separate buffers and overlaps with d_last not inside (first,last). No word outside the ranges is accessed.", "quantifier": "every width, alignments, length, contents and admissible overlap", "why_tests_cant": "The result depends on the word width, both start offsets inside a word, the length modulo the word width and the contents; tests sample a few lengths with random contents and cannot cover the product of cases at every size.", "anchors": ["include/bitlib/bit-algorithms/copy_backward.hpp: copy_backward"]}
{"id": "C10", "title": "fill sets exactly the range", "statement": "After fill(first,last,v) every bit of [first,last) is v and every other bit is unchanged; only words holding a bit of the range are accessed.", "quantifier": "every width, alignment, length, contents and v", "why_tests_cant": "The result depends on the word width, both start offsets inside a word, the length modulo the word width and the contents; tests sample a few lengths with random contents and cannot cover the product of cases at every size.", "anchors": ["include/bitlib/bit-algorithms/fill.hpp: fill", "include/bitlib/bit-algorithms/bit_algorithm_details.hpp: write_word, is_within"]}
{"id": "C11", "title": "find returns the first match", "statement": "find(first,last,v) returns an iterator r in [first,last] such that no bit of [first,r) equals v, and r==last or *r==v; memory is not modified and no word outside the range is read.", "quantifier": "every width, alignments, length, contents and v", "why_tests_cant": "The set of inputs with no match, a match just outside the range, or in the last partial word is unbounded.", "anchors": ["include/bitlib/bit-algorithms/find.hpp: find", "include/bitlib/bit-iterator/bit_details.hpp: _tzcnt"]}
{"id": "C12", "title": "equal decides bitwise equality", "statement": "equal(first,last,d_first) returns true iff for every i the i-th bits of the two ranges agree; bits outside the ranges never influence the result; nothing is modified and no word outside the ranges is read.", "quantifier": "every width, both alignments, length and contents", "why_tests_cant": "The result depends on the word width, both start offsets inside a word, the length modulo the word width and the contents; tests sample a few lengths with random contents and cannot cover the product of cases at every size.", "anchors": ["include/bitlib/bit-algorithms/equal.hpp: equal"]}
{"id": "C13", "title": "count counts matches in every non-empty range", "statement": "count(first,last,v) returns the number of bits equal to v in the non-empty range [first,last); hence count of ones plus count of zeros is the length; memory is not modified and no word outside the range is read.", "quantifier": "every width, alignments, non-zero length and contents", "why_tests_cant": "The result depends on the word width, both start offsets inside a word, the length modulo the word width and the contents; tests sample a few lengths with random contents and cannot cover the product of cases at every size.", "anchors": ["include/bitlib/bit-algorithms/count.hpp: count", "include/bitlib/bit-algorithms/libpopcnt.h: popcnt"]}
{"id": "C14", "title": "count on an empty range touches no memory", "statement": "count(first,first,v) returns 0 without reading memory, so counting over an empty bit_vector is well defined, as for std::count.", "quantifier": "every width, iterator and value, including iterators at the end of an allocation", "why_tests_cant": "The result is right whenever the stray read happens to be mapped, so a test passes although the access is invalid.", "anchors": ["include/bitlib/bit-algorithms/count.hpp: count"]}
{"id": "C15", "title": "reverse mirrors exactly the range", "statement": "After reverse(first,last), bit i of the range equals old bit (length-1-i), bits outside the range are unchanged, and only words of the range are accessed. Applying it twice restores the memory.", "quantifier": "every width in {8,16,32,64}, alignments, length and contents", "why_tests_cant": "The result depends on the word width, both start offsets inside a word, the length modulo the word width and the contents; tests sample a few lengths with random contents and cannot cover the product of cases at every size.", "anchors": ["include/bitlib/bit-algorithms/reverse.hpp: reverse", "include/bitlib/bit-iterator/bit_details.hpp: _bitswap", "include/bitlib/bit-algorithms/shift.hpp: shift_left, shift_right"]}
{"id": "C16", "title": "shift_left moves the tail to the front", "statement": "For 0<n<last-first, after shift_left(first,last,n) bit i of [first,last-n) equals old bit i+n of the range, every bit outside [first,last) is unchanged and last-n is returned; n<=0 returns last and n>=length returns first with memory untouched. Only words of the range are accessed.", "quantifier": "every width, alignments, length, contents and signed n", "why_tests_cant": "The result depends on the word width, both start offsets inside a word, the length modulo the word width and the contents; tests sample a few lengths with random contents and cannot cover the product of cases at every size.", "anchors": ["include/bitlib/bit-algorithms/shift.hpp: shift_left", "include/bitlib/bit-algorithms/bit_algorithm_details.hpp: word_shift_left"]}
{"id": "C17", "title": "shift_right moves the head to the back", "statement": "For 0<n<last-first, after shift_right(first,last,n) bit i+n of the range equals old bit i, every bit outside [first,last) is unchanged and first+n is returned; n<=0 returns first and n>=length returns last with memory untouched. Only words of the range are accessed.", "quantifier": "every width, alignments, length, contents and signed n", "why_tests_cant": "The result depends on the word width, both start offsets inside a word, the length modulo the word width and the contents; tests sample a few lengths with random contents and cannot cover the product of cases at every size.", "anchors": ["include/bitlib/bit-algorithms/shift.hpp: shift_right", "include/bitlib/bit-algorithms/bit_algorithm_details.hpp: word_shift_right"]}
{"id": "C18", "title": "No algorithm performs an oversized shift", "statement": "copy, move, fill, find, equal, transform, swap_ranges, count, copy_backward, reverse, rotate, shift_left, shift_right never shift a word by its (promoted) width or more on valid arguments.", "quantifier": "every width, alignments, length, contents", "why_tests_cant": "An oversized shift usually yields the expected value on a given CPU and compiler, so tests cannot detect it.", "anchors": ["include/bitlib/bit-iterator/bit_details.hpp: _bitblend, _shrd", "include/bitlib/bit-algorithms/shift.hpp", "include/bitlib/bit-algorithms/reverse.hpp", "include/bitlib/bit-algorithms/copy_backward.hpp", "include/bitlib/bit-algorithms/rotate.hpp"]}
{"id": "C19", "title": "rotate rotates exactly the range", "statement": "For first<=n_first<last, rotate(first,n_first,last) places the bits of [n_first,last) followed by those of [first,n_first) in the range, leaves all other bits unchanged, and returns first+(last-n_first).", "quantifier": "every width, all three alignments, all lengths and split points, all contents", "why_tests_cant": "The block-swap loop follows a Euclid-like recursion whose depth depends on the lengths; tests cover only a handful of quotient patterns.", "anchors": ["include/bitlib/bit-algorithms/rotate.hpp: rotate, _rotate_via_raw", "include/bitlib/bit-algorithms/swap_ranges.hpp: swap_ranges"]}
{"id": "C20", "title": "rotate accepts n_first == last", "statement": "rotate(first,last,last), which the std::rotate contract allows, leaves the range unchanged, returns first, and touches no memory outside the range.", "quantifier": "every width, alignments, length and contents", "why_tests_cant": "The failure needs a boundary argument at a particular alignment and may be masked by mapped memory or CPU shift semantics.", "anchors": ["include/bitlib/bit-algorithms/rotate.hpp: rotate"]}
{"id": "C21", "title": "rotate terminates and its rounds compose", "statement": "rotate terminates for every valid argument, and rotating by k and then by length-k restores the original contents.", "quantifier": "every width, alignments, lengths and k", "why_tests_cant": "Termination of the unbounded for(;;) loop and an inverse law over all inputs are universal statements.", "anchors": ["include/bitlib/bit-algorithms/rotate.hpp: _rotate_via_raw"]}
{"id": "C22", "title": "swap_ranges exchanges two disjoint ranges", "statement": "For disjoint ranges, swap_ranges(first1,last1,first2) exchanges them bit by bit, leaves every other bit unchanged (also when the ranges share a word), returns first2+(last1-first1), accesses only words of the ranges, and applied twice is the identity.", "quantifier": "every width, both alignments, length, contents, including ranges adjacent inside one word", "why_tests_cant": "The result depends on the word width, both start offsets inside a word, the length modulo the word width and the contents; tests sample a few lengths with random contents and cannot cover the product of cases at every size.", "anchors": ["include/bitlib/bit-algorithms/swap_ranges.hpp: swap_ranges", "include/bitlib/bit-iterator/bit_details.hpp: _bitexch"]}
{"id": "C23", "title": "unary transform applies a bitwise operation bit by bit", "statement": "For a word operation that acts bit by bit (for example ~), transform(first,last,d_first,op) sets destination bit i to op of source bit i, keeps every other bit, returns d_first+(last-first) and accesses only words of the ranges; in-place use is allowed.", "quantifier": "every width, alignments, length, contents, every bitwise op, in-place and left-overlapping use", "why_tests_cant": "The result depends on the word width, both start offsets inside a word, the length modulo the word width and the contents; tests sample a few lengths with random contents and cannot cover the product of cases at every size.", "anchors": ["include/bitlib/bit-algorithms/transform.hpp: transform (unary)"]}
{"id": "C24", "title": "binary transform applies a bitwise operation bit by bit", "statement": "For a word operation acting bit by bit (&, |, ^, ...), transform(first1,last1,first2,d_first,op) sets destination bit i to op(source1 bit i, source2 bit i), keeps every other bit, returns d_first+(last1-first1) and accesses only words of the ranges.", "quantifier": "every width, three alignments, length, contents, every bitwise op", "why_tests_cant": "The result depends on the word width, both start offsets inside a word, the length modulo the word width and the contents; tests sample a few lengths with random contents and cannot cover the product of cases at every size.", "anchors": ["include/bitlib/bit-algorithms/transform.hpp: transform (binary)"]}
{"id": "C25", "title": "bit_vector push_back and pop_back are list append and drop-last", "statement": "push_back(v) appends v, keeps all earlier elements and increases size by one; pop_back on a non-empty vector removes the last element and keeps the rest; both are safe in any reachable state.", "quantifier": "every reachable bit_vector state (however constructed), every value, every width", "why_tests_cant": "Reachable states include over-allocated ones created by some constructors and arbitrary histories of operations.", "anchors": ["include/bitlib/bit-containers/bit_vector.hpp: push_back, pop_back"]}
{"id": "C26", "title": "bit_vector insert of one element", "statement": "insert(pos,v) puts v before pos, keeps the order of all other elements, increases size by one, and returns an iterator to the new element.", "quantifier": "every reachable state, position, value and width", "why_tests_cant": "Position, size, word boundary and history form an unbounded space.", "anchors": ["include/bitlib/bit-containers/bit_vector.hpp: insert(const_iterator, const value_type&)"]}
{"id": "C27", "title": "bit_vector insert of count copies", "statement": "insert(pos,count,v) puts count copies of v before pos, keeps the order of all other elements, grows size by count and returns an iterator to the first inserted element, for every size the vector can hold.", "quantifier": "every reachable state, position, count, value and width, including sizes above 2^24 bits", "why_tests_cant": "The required capacity is computed in single precision, whose rounding only matters for sizes tests do not reach.", "anchors": ["include/bitlib/bit-containers/bit_vector.hpp: insert(const_iterator, size_type, const value_type&)"]}
{"id": "C28", "title": "bit_vector insert of a range", "statement": "insert(pos,first,last) puts the bits of [first,last) (of another sequence) before pos, keeps the order of all other elements, grows size accordingly and returns an iterator to the first inserted element, for every size the vector can hold.", "quantifier": "every reachable state, position, source range and width, including sizes above 2^24 bits", "why_tests_cant": "As for insert of count copies; additionally two independent alignments.", "anchors": ["include/bitlib/bit-containers/bit_vector.hpp: insert(const_iterator, iterator, iterator)"]}
{"id": "C29", "title": "bit_vector erase of one element", "statement": "erase(pos) removes exactly the element at pos, keeps the order of all others, decreases size by one and returns an iterator to the element after the removed one.", "quantifier": "every reachable state, position and width", "why_tests_cant": "Position, size and history form an unbounded space.", "anchors": ["include/bitlib/bit-containers/bit_vector.hpp: erase(iterator)"]}
{"id": "C30", "title": "bit_vector erase of a range", "statement": "erase(first,last) removes exactly the elements of [first,last), keeps the others in order, and returns an iterator to the position of the first removed element.", "quantifier": "every reachable state, every sub-range and width", "why_tests_cant": "Position, length, size and history form an unbounded space.", "anchors": ["include/bitlib/bit-containers/bit_vector.hpp: erase(iterator, iterator)"]}
{"id": "C31", "title": "bit_vector resize keeps old elements and zero-initialises new ones", "statement": "resize(n) keeps the first min(n,size()) elements and gives every additional element the value bit0.", "quantifier": "every reachable state, every n and width", "why_tests_cant": "New elements may alias stale bits left in the last word by earlier operations; the defect depends on the history.", "anchors": ["include/bitlib/bit-containers/bit_vector.hpp: resize(size_type)"]}
{"id": "C32", "title": "bit_vector resize with a value initialises new elements to it", "statement": "resize(n,v) keeps the first min(n,size()) elements and gives every additional element the value v.", "quantifier": "every reachable state, every n, v and width", "why_tests_cant": "Depends on history and on the value; a test with v=bit0 on fresh storage passes by accident.", "anchors": ["include/bitlib/bit-containers/bit_vector.hpp: resize(size_type, const value_type&)"]}
{"id": "C33", "title": "bit_vector constructors build the stated contents", "statement": "bit_vector(n), bit_vector(n,v), and construction from a string, from a bool range, from a word range or list, and from a bit-iterator range produce a vector of the stated size whose elements are the given ones (a string contributes its '0'/'1' characters in order, others are skipped; words contribute their bits least significant first).", "quantifier": "every input sequence/string/count below 2^32, every width", "why_tests_cant": "All strings, ranges and counts.", "anchors": ["include/bitlib/bit-containers/bit_vector.hpp: bit_vector constructors, range_constructor"]}
{"id": "C34", "title": "A bit_vector can hold 2^32 or more bits", "statement": "bit_vector(n), resize(n) and reserve(n) provide storage for n bits for every n that max_size() admits.", "quantifier": "every n up to max_size()", "why_tests_cant": "Needs more than 512 MiB per vector, beyond what the unit tests allocate.", "anchors": ["include/bitlib/bit-containers/bit_vector.hpp: word_count, bit_vector(size_type, ...), resize, reserve"]}
{"id": "C35", "title": "Any history of bit_vector operations behaves like a sequence of bits", "statement": "Starting from any constructor, after any finite sequence of valid calls of push_back, pop_back, insert, erase, clear, element assignment, copy and move, the observable contents (size(), operator[]) equal those of a plain sequence subjected to the same operations, and no call has undefined behaviour.", "quantifier": "all finite operation histories of any length, all widths", "why_tests_cant": "The number of histories is infinite.", "anchors": ["include/bitlib/bit-containers/bit_vector.hpp: bit_vector"]}
{"id": "C36", "title": "at() checks bounds, operator[] reads the element", "statement": "at(i) yields element i when i<size() and throws out_of_range otherwise without touching memory; operator[], front and back yield the corresponding elements for valid indices.", "quantifier": "every reachable state and index", "why_tests_cant": "All states and indices, including indices inside allocated but unused storage.", "anchors": ["include/bitlib/bit-containers/bit_vector.hpp: at, operator[], front, back"]}
{"id": "C37", "title": "debug_string and the string constructor are inverse", "statement": "bit_vector(v.debug_string()) has the same size and elements as v, and debug_string lists the bits in order with separators only every 8 bits.", "quantifier": "every reachable vector and width", "why_tests_cant": "All contents and sizes.", "anchors": ["include/bitlib/bit-containers/bit_vector.hpp: debug_string, bit_vector(std::string_view)"]}
{"id": "C38", "title": "reserve guarantees capacity and preserves contents", "statement": "After reserve(n) with n<2^32, capacity()>=n, and size and contents are unchanged; shrink_to_fit and clear keep the vector valid.", "quantifier": "every reachable state and n", "why_tests_cant": "All states and sizes; the growth policy is implementation-defined.", "anchors": ["include/bitlib/bit-containers/bit_vector.hpp: reserve, capacity, shrink_to_fit, clear"]}
{"id": "C39", "title": "Word-level popcount, leading and trailing zero counts", "statement": "The library's portable population count, leading-zero count and trailing-zero count return the number of set bits, the number of zeros above the highest set bit and below the lowest set bit (the width for 0).", "quantifier": "every word of every width", "why_tests_cant": "2^64 words cannot be enumerated.", "anchors": ["include/bitlib/bit-iterator/bit_details.hpp: _popcnt, _lzcnt, _tzcnt"]}
{"id": "C40", "title": "Bit field extraction and blending", "statement": "_bextr(x,start,len) yields bits [start,start+len) of x right-aligned; _bitblend(a,b,start,len) takes bits [start,start+len) from b and the others from a; the mask form selects per mask bit.", "quantifier": "every words, start and len within the width", "why_tests_cant": "2^128 operand pairs times all fields.", "anchors": ["include/bitlib/bit-iterator/bit_details.hpp: _bextr, _bitblend"]}
{"id": "C41", "title": "Bit field exchange", "statement": "_bitexch exchanges the two designated fields of two words and leaves the other bits unchanged, for different offsets, also when both references designate the same word and the fields are disjoint.", "quantifier": "every pair of words, offsets and lengths, with and without aliasing", "why_tests_cant": "2^128 operand pairs; aliasing.", "anchors": ["include/bitlib/bit-iterator/bit_details.hpp: _bitexch"]}
{"id": "C42", "title": "Parallel deposit and extract", "statement": "_pext(x,m) gathers the bits of x selected by m to the low end in order, _pdep(x,m) scatters the low bits of x to the positions of m in order; _pext(_pdep(x,m),m) keeps the low popcount(m) bits of x and _pdep(_pext(x,m),m) == x & m.", "quantifier": "every pair of words of every width", "why_tests_cant": "2^128 operand pairs.", "anchors": ["include/bitlib/bit-iterator/bit_details.hpp: _pdep, _pext"]}
{"id": "C43", "title": "Bit reversal of a word", "statement": "_bitswap(x) has bit i equal to bit width-1-i of x for 8, 16, 32 and 64 bit words (and for the loop used for other widths); it is an involution.", "quantifier": "every word", "why_tests_cant": "2^64 words.", "anchors": ["include/bitlib/bit-iterator/bit_details.hpp: _bitswap"]}
{"id": "C44", "title": "Byte reversal of a word", "statement": "_byteswap(x) has byte i equal to byte n-1-i of x and is an involution.", "quantifier": "every word of every byte-multiple width", "why_tests_cant": "2^64 words.", "anchors": ["include/bitlib/bit-iterator/bit_details.hpp: _byteswap"]}
{"id": "C45", "title": "Double-precision shifts", "statement": "For 0<cnt<digits, _shld and _shrd return the high/low word of the double-width value shifted by cnt; for digits<=cnt<2*digits they return the bits of src alone; a count of 0 returns dst unchanged.", "quantifier": "every pair of words, every count", "why_tests_cant": "2^128 operand pairs; the count 0 case is a shift by the full width.", "anchors": ["include/bitlib/bit-iterator/bit_details.hpp: _shld, _shrd"]}
{"id": "C46", "title": "Add with carry and subtract with borrow", "statement": "_addcarry and _subborrow produce the result modulo 2^digits and exactly the carry/borrow out, so chaining them over word arrays computes multi-word sums and differences.", "quantifier": "every operands, carries and numbers of words", "why_tests_cant": "2^129 inputs per word; arrays of any length.", "anchors": ["include/bitlib/bit-iterator/bit_details.hpp: _addcarry, _subborrow"]}
{"id": "C47", "title": "Full multiplication", "statement": "_mulx(a,b,&hi) returns lo with hi*2^digits + lo == a*b.", "quantifier": "every pair of words of every even width", "why_tests_cant": "2^128 operand pairs.", "anchors": ["include/bitlib/bit-iterator/bit_details.hpp: _mulx"]}
{"id": "C48", "title": "Bulk population count equals the number of set bits", "statement": "libpopcnt's popcnt(data,size) returns the number of set bits of the size bytes at data, whichever internal path (unrolled, tail bytes, integer fallback) is taken, and reads only those bytes.", "quantifier": "every buffer contents and size", "why_tests_cant": "All buffer sizes and contents.", "anchors": ["include/bitlib/bit-algorithms/libpopcnt.h: popcnt, popcount64, popcnt64_unrolled, popcnt64"]}
{"id": "C49", "title": "get_word and write_word are inverse on a bit field", "statement": "write_word(x,it,len) stores the low len bits of x at it and nothing else; get_word(it,len) returns a word whose low len bits are the bits at it; reading back after writing returns the low len bits.", "quantifier": "every width, position, len<=width and contents", "why_tests_cant": "The result depends on the word width, both start offsets inside a word, the length modulo the word width and the contents; tests sample a few lengths with random contents and cannot cover the product of cases at every size.", "anchors": ["include/bitlib/bit-algorithms/bit_algorithm_details.hpp: get_word, write_word"]}
{"id": "C50", "title": "is_within<N> is the distance test", "statement": "is_within<N>(first,last) is true iff last-first<=N, for every N>=0 and first<=last.", "quantifier": "every N, width and iterator pair", "why_tests_cant": "Infinitely many N and positions; the recursion unrolls over words.", "anchors": ["include/bitlib/bit-algorithms/bit_algorithm_details.hpp: is_within"]}
{"id": "C51", "title": "Algorithms agree with each other", "statement": "copy followed by equal on the two ranges returns true; fill(v) followed by count(v) returns the length and find(!v) returns last; find(v)==last iff count(v)==0 on non-empty ranges; reverse, rotate and swap_ranges preserve the number of ones.", "quantifier": "every width, alignment, length and contents", "why_tests_cant": "Relational laws over all inputs.", "anchors": ["include/bitlib/bit-algorithms/copy.hpp", "include/bitlib/bit-algorithms/equal.hpp", "include/bitlib/bit-algorithms/fill.hpp", "include/bitlib/bit-algorithms/count.hpp", "include/bitlib/bit-algorithms/find.hpp", "include/bitlib/bit-algorithms/reverse.hpp", "include/bitlib/bit-algorithms/rotate.hpp"]}
{"id": "C52", "title": "Stream insertion and extraction of bits round-trip", "statement": "Writing a bit to a stream and extracting it yields the same bit; extraction consumes exactly one 0/1 character after whitespace, and leaves the stream failed with the character put back (or at end) and the target unchanged otherwise.", "quantifier": "every stream contents and prior value", "why_tests_cant": "All stream contents.", "anchors": ["include/bitlib/bit-iterator/bit_value.hpp: operator>>, operator<<", "include/bitlib/bit-iterator/bit_reference.hpp: operator>>, operator<<"]}
{"id": "C53", "title": "Copied and moved bit_vectors", "statement": "Copying yields an independent vector with equal contents; move assignment transfers the contents and leaves the source empty and usable; operations on one vector never change another.", "quantifier": "every pair of reachable states and later histories", "why_tests_cant": "All states and subsequent histories.", "anchors": ["include/bitlib/bit-containers/bit_vector.hpp: operator=, copy/move constructors"]}
{"id": "C54", "title": "bit_value behaves as a boolean", "statement": "bit_value's conversions, assignment, &=, |=, ^=, set, reset, flip and swap implement the boolean operations; a bit_value built from a word takes its least significant bit and from (word,pos) the bit at pos.", "quantifier": "every value, word and position", "why_tests_cant": "All words and positions.", "anchors": ["include/bitlib/bit-iterator/bit_value.hpp: bit_value"]}
{"id": "C55", "title": "Iterator difference is exact under 64-bit wrap-around", "statement": "The size_t/ptrdiff_t arithmetic of iterator difference, advance and distance computes the mathematical result whenever the true bit distance fits in a signed 64-bit integer, although intermediate terms wrap.", "quantifier": "all 64-bit operand values", "why_tests_cant": "2^192 operand combinations.", "anchors": ["include/bitlib/bit-iterator/bit_iterator.hpp: operator-, operator+", "include/bitlib/bit-algorithms/bit_algorithm_details.hpp: distance"]}
{"id": "C56", "title": "Integer promotion of 8- and 16-bit words does not change results", "statement": "For 8- and 16-bit words, evaluating the masks and shifts in promoted 32-bit int and truncating gives the same words as arithmetic at the word's own width, and no promoted shift is out of range for a shift equal to the word width.", "quantifier": "every operands, start and len", "why_tests_cant": "All operand combinations for each primitive.", "anchors": ["include/bitlib/bit-iterator/bit_details.hpp: _bitblend, _bextr, _shrd, _shld, _bitexch"]}
{"id": "C57", "title": "SIMD builds of fill, find and transform(bit_not) keep their contracts", "statement": "Compiled with BITLIB_HWY, fill sets exactly the bits of the range, find returns the first position holding the value (or last), and transform with std::bit_not writes the complement of the source range, each touching only words of its ranges, whatever the number of vector lanes and the alignment of the buffers.", "quantifier": "every range, value, memory, word width, vector size dividing 64 bytes, buffer address", "why_tests_cant": "Tests run on one machine's vector width and a few buffer alignments.", "anchors": ["include/bitlib/bit-algorithms/fill.hpp: fill (BITLIB_HWY)", "include/bitlib/bit-algorithms/find.hpp: find (BITLIB_HWY)", "include/bitlib/bit-algorithms/transform.hpp: transform (BITLIB_HWY)"]}
{"id": "C58", "title": "SIMD builds of shift_left, shift_right and reverse keep their contracts", "statement": "Compiled with BITLIB_HWY, shift_left and shift_right move the bits of the range by n and return the new end or begin, and reverse mirrors the range, changing nothing outside the range, whatever the number of vector lanes and the alignment of the buffer.", "quantifier": "every range, shift count, memory, word width, vector size dividing 64 bytes, buffer address", "why_tests_cant": "The vector loops overlap source and destination; which overlaps occur depends on alignment, lanes and shift count.", "anchors": ["include/bitlib/bit-algorithms/shift.hpp: shift_left, shift_right (BITLIB_HWY)", "include/bitlib/bit-algorithms/reverse.hpp: reverse"]}
{"id": "C59", "title": "SIMD builds never do a misaligned vector access", "statement": "Every aligned vector load and store executed by fill, find, transform, shift_left, shift_right and reverse in a BITLIB_HWY build is at an address that is a multiple of the vector size, and the result is that of the scalar build.", "quantifier": "every range, memory, word width, vector size dividing 64 bytes, buffer address", "why_tests_cant": "Depends on buffer addresses modulo 64 and on the machine.", "anchors": ["include/bitlib/bit-algorithms/shift.hpp: shift_left, shift_right (BITLIB_HWY)", "include/bitlib/bit-algorithms/fill.hpp: fill (BITLIB_HWY)"]}
{"id": "C60", "title": "rotation through a stack buffer rotates", "statement": "_rotate_via_copy_begin<It, B>(first, n_first, last) and _rotate_via_copy_end rotate [first, last) so that the bit at n_first comes first and return the position of the old first bit, for every part of at most B*digits bits, touching nothing but the range and the buffer of B words.", "quantifier": "every range, split point, buffer size, memory, word width up to 64", "why_tests_cant": "The templates are not called by the library or its tests; overrunning a stack array by one word need not crash.", "anchors": ["include/bitlib/bit-algorithms/rotate.hpp: _rotate_via_copy_begin, _rotate_via_copy_end"]}
{"id": "C61", "title": "_padded_read pads exactly the bits outside the range", "statement": "_padded_read(first, last, bv) returns the word of first with every bit outside [first, last) replaced by bv, reads only that word and writes nothing.", "quantifier": "every nonempty range, padding value, memory, word width", "why_tests_cant": "Not called by the library; five cases times all positions.", "anchors": ["include/bitlib/bit-algorithms/bit_algorithm_details.hpp: _padded_read"]}
{"id": "C62", "title": "get_word and write_word between different word types", "statement": "get_word<T>(first, len) returns the len bits at first in a T, and write_word<T>(src, dst, len) stores the low len bits of src at dst and changes nothing else, also if T is not the word type of the range.", "quantifier": "every pair of widths, length, position, memory", "why_tests_cant": "The library instantiates both only with the native type.", "anchors": ["include/bitlib/bit-algorithms/bit_algorithm_details.hpp: get_word, write_word"]}
{"id": "C63", "title": "word_shift_left and word_shift_right have the contract of std::shift_left and std::shift_right", "statement": "For 0 < n < last - first every word of [first, last) moves n places, the new end (or begin) is returned and no word outside changes; otherwise nothing is accessed and the documented end is returned.", "quantifier": "every word range, count, memory, word width", "why_tests_cant": "Overlapping moves of unbounded length.", "anchors": ["include/bitlib/bit-algorithms/bit_algorithm_details.hpp: word_shift_left, word_shift_right"]}
{"id": "C64", "title": "Algorithms on the elements of a bit_vector act as on a list", "statement": "copy, move, copy_backward, transform, fill, reverse, rotate, shift_left, shift_right, swap_ranges applied to iterators begin()+a of a bit_vector change its elements as the std algorithm changes a list, return the right position, and touch nothing outside the storage of the vector; find, count and equal answer as on the list. The source may be the same vector, another vector or other memory.", "quantifier": "every vector state, element range, source, word width, allocation history", "why_tests_cant": "All states of a vector (capacity, unused bits of the last word), all positions and lengths, all kinds of aliasing.", "anchors": ["include/bitlib/bit-algorithms/*.hpp", "include/bitlib/bit-containers/bit_vector.hpp: begin, end"]}
{"id": "C65", "title": "Programs mixing bit_vector members and algorithms behave as on lists of bool", "statement": "Take any sequence of valid calls of bit_vector members and of the algorithms on element ranges of any number of bit_vectors. It runs without undefined behaviour, and every value it observes (returned positions, counts, comparisons, sizes, elements, debug strings) is the one the same calls give on lists of bool.", "quantifier": "every program, number of vectors, allocation policy, word width", "why_tests_cant": "Unbounded sequences of calls on unboundedly many vectors.", "anchors": ["include/bitlib/bit-containers/bit_vector.hpp", "include/bitlib/bit-algorithms/*.hpp"]}
{"id": "C66", "title": "The example program prints what its comments say", "statement": "example1.cpp runs without undefined behaviour and prints exactly the four bit strings given in its comments.", "quantifier": "every allocation policy of std::vector, every treatment of oversized shifts", "why_tests_cant": "A test runs one standard library and one compiler.", "anchors": ["example/src/example1.cpp"]}
{"id": "C67", "title": "Type selection picks the type its name says; field comparison", "statement": "_narrowest_type/_widest_type select a listed type with the fewest/most bits; _narrower_type/_wider_type select the next standard unsigned type with fewer/more bits if there is one; whatever branch is selected, _addcarry, _subborrow and _mulx give the exact result; _bitcmp returns 0 if the two fields are equal.", "quantifier": "every list of types, every word width, every word value, start and length", "why_tests_cant": "Selection happens at compile time on the platform of the test, and wrong selections are masked by a fallback that gives the right value.", "anchors": ["include/bitlib/bit-iterator/bit_details.hpp:97-257", "include/bitlib/bit-iterator/bit_details.hpp:841-1046"]}
{"id": "C68", "title": "Null bit_pointers", "statement": "A bit_pointer that is default-constructed, made from nullptr, made from a null word pointer or assigned nullptr is false, equals every other such pointer, is at distance 0 from it, and differs from every pointer to a bit of an existing word; adding 0 leaves it null.", "quantifier": "every pointer, word width, _tzcnt implementation", "why_tests_cant": "The null state has mask 0, which no valid pointer has; equality through _tzcnt has to be considered for every implementation.", "anchors": ["include/bitlib/bit-iterator/bit_pointer.hpp:134-230", "include/bitlib/bit-iterator/bit_pointer.hpp:331-488", "include/bitlib/bit-iterator/bit_reference.hpp:508-541"]}
{"id": "C69", "title": "References to words of different types in one storage", "statement": "Assigning a bit_reference<T> from a bit_reference<U>, swapping the two (member and free function), comparing them and combining them with &, |, ^ act on exactly the two designated bits of the storage, also when the two words share bytes and when both references designate the same bit; on an array of words of one type the byte storage behaves as a memory of words.", "quantifier": "every pair of word sizes that are whole bytes, every position, address and content, both byte orders", "why_tests_cant": "The result depends on the layout of the two words relative to each other and on the byte order; a test run sees one byte order and a few layouts.", "anchors": ["include/bitlib/bit-iterator/bit_reference.hpp:194-203", "include/bitlib/bit-iterator/bit_reference.hpp:299-363", "include/bitlib/bit-iterator/bit_reference.hpp:401-412", "include/bitlib/bit-iterator/bit_value.hpp:155-162", "include/bitlib/bit-iterator/bit_value.hpp:347-432"]}
{"id": "C70", "title": "Walking over a range of bits", "statement": "it++, it--, +=, -=, n + it, advance, next and iterator conversion designate the bit they should and return the right iterator; is_within(first,last,n) decides last-first<=n; the position predicates decide what their names say; a loop from first to last with ++ (a range-based for) meets every bit of the range once and in order and stops, with -- in the opposite order; assigning to *it in such a loop writes exactly the range.", "quantifier": "every range, position, offset, word width, content and length", "why_tests_cant": "A loop that misses or repeats a bit at one word boundary shows only for particular starts and lengths; termination of the != loop needs every iterator to be canonical.", "anchors": ["include/bitlib/bit-iterator/bit_iterator.hpp:149-157", "include/bitlib/bit-iterator/bit_iterator.hpp:270-385", "include/bitlib/bit-iterator/bit_pointer.hpp:309-329", "include/bitlib/bit-algorithms/bit_algorithm_details.hpp:43-76", "include/bitlib/bit-algorithms/bit_algorithm_details.hpp:319-348", "include/bitlib/bit-containers/bit_vector.hpp:422-458"]}
{"id": "C71", "title": "A member call that throws changes nothing", "statement": "If push_back, an insert, resize, reserve or copy assignment of bit_vector throws, the vector and everything else is as before the call. For sizes below 2^32 (up to 2^24 where several elements are inserted) the call throws exactly if the storage it needs exceeds the capacity and the request for it is refused. shrink_to_fit keeps the elements whatever the allocator does. pop_back, erase, clear and element assignment never throw. at() throws out_of_range exactly for an index out of range and changes nothing. A constructor that throws leaves all existing storage as it was.", "quantifier": "every state, argument, allocator (which requests are refused, max_size), growth policy, word width", "why_tests_cant": "A failing allocation can be injected at a few points of a few runs, not at every request in every state.", "anchors": ["include/bitlib/bit-containers/bit_vector.hpp:204-337", "include/bitlib/bit-containers/bit_vector.hpp:364-382", "include/bitlib/bit-containers/bit_vector.hpp:481-496", "include/bitlib/bit-containers/bit_vector.hpp:501-627"]}
{"id": "C72", "title": "Programs that catch allocation failures", "statement": "In a program that makes calls on any number of vectors and decides what to do next from whether the previous calls threw, every call either does what it does to a list of bool or throws bad_alloc or length_error and changes no vector; there is no undefined behaviour.", "quantifier": "every such program whose calls are valid, every allocator, growth policy and word width", "why_tests_cant": "The number of interleavings of failures and recoveries is unbounded.", "anchors": ["include/bitlib/bit-containers/bit_vector.hpp:204-350", "include/bitlib/bit-containers/bit_vector.hpp:481-627"]}
{"id": "C73", "title": "Calls within the capacity neither throw nor move the elements", "statement": "While the new size exceeds neither capacity() nor the size limit of C71, push_back, insert, resize and reserve do not throw, begin() and capacity() stay the same and every iterator designates the position it did; the same holds always for pop_back, erase and clear. After a successful reserve(n), n < 2^32, any push_backs up to n elements succeed whatever the allocator does.", "quantifier": "every state, argument, allocator, growth policy, word width", "why_tests_cant": "A reallocation at one particular size or by one particular growth policy is missed by samples; a stale iterator often still reads plausible data.", "anchors": ["include/bitlib/bit-containers/bit_vector.hpp:424-458", "include/bitlib/bit-containers/bit_vector.hpp:481-491", "include/bitlib/bit-containers/bit_vector.hpp:501-616"]}
{"id": "C74", "title": "noexcept members do not end the program", "statement": "No call of a noexcept member of bit_vector ends the program because an exception leaves it.", "quantifier": "every state, argument, allocator, growth policy, word width", "why_tests_cant": "It shows only when an allocation fails at the right moment.", "anchors": ["include/bitlib/bit-containers/bit_vector.hpp:94-95", "include/bitlib/bit-containers/bit_vector.hpp:115", "include/bitlib/bit-containers/bit_vector.hpp:133", "include/bitlib/bit-containers/bit_vector.hpp:147-175", "include/bitlib/bit-containers/bit_vector.hpp:244-246"]}
{"id": "C75", "title": "count on bytes is right on every CPU", "statement": "count(first,last,value) on an array of words returns the number of bits of [first,last) equal to value and reads only words of the range, whichever version of libpopcnt.h is compiled in.", "quantifier": "every word size, byte order, address, CPU version, positions, range below 2^62 bits and contents", "why_tests_cant": "A wrong count needs a particular CPU, word type, address and number of words; tests run on one CPU with one container.", "anchors": ["include/bitlib/bit-algorithms/count.hpp:34-117", "include/bitlib/bit-algorithms/libpopcnt.h:559-798"]}
{"id": "C76", "title": "count on any random access sequence of words", "statement": "count(first,last,value) returns the number of bits of [first,last) equal to value for every random access iterator over words, also if the words do not follow each other in memory.", "quantifier": "every arrangement of the words in memory, positions, width and contents", "why_tests_cant": "The suite uses std::vector only; for other containers the result depends on where the pieces lie in memory.", "anchors": ["include/bitlib/bit-algorithms/count.hpp:34-117", "include/bitlib/bit-iterator/bit_iterator.hpp"]}
{"id": "C77", "title": "What shifts leave in the vacated bits", "statement": "After shift_left(first,last,n) with 0<n<last-first the vacated bits are 0 if the range lies in one word and unchanged otherwise; after shift_right likewise, except that shifting by a whole number of words a range that starts inside a word and whose remaining bits reach another word puts the bits preceding the range in that word into the vacated bits just before first+n.", "quantifier": "every width, positions, shift count, range and contents, scalar and SIMD builds", "why_tests_cant": "The tests compare only the shifted bits; the vacated ones depend on word boundaries and on bits outside the range.", "anchors": ["include/bitlib/bit-algorithms/shift.hpp:46-238", "include/bitlib/bit-algorithms/shift.hpp:240-377"]}
{"id": "C78", "title": "Operations are isolated from the other bits of their words", "statement": "Every algorithm and every operation of a bit reference depends only on the bits of the ranges it is given and changes only bits of its destination: two memories that agree on those bits give the same result, whatever the other bits of the same words hold.", "quantifier": "every algorithm, width, positions, length and pair of memories that agree on the ranges", "why_tests_cant": "It compares two executions on memories that differ in arbitrary places; a test fixes the surrounding bits.", "anchors": ["include/bitlib/bit-algorithms/copy.hpp", "include/bitlib/bit-algorithms/fill.hpp", "include/bitlib/bit-algorithms/rotate.hpp", "include/bitlib/bit-algorithms/shift.hpp", "include/bitlib/bit-iterator/bit_reference.hpp"]}
{"id": "C79", "title": "Operations on disjoint bits commute", "statement": "Two operations, or programs made of them, neither of which writes a bit that the other reads or writes, give the same results and the same memory in either order, also if their bits share words.", "quantifier": "every pair of operations with disjoint bits, every memory", "why_tests_cant": "All pairs of operations, alignments and contents.", "anchors": ["include/bitlib/bit-algorithms/copy.hpp", "include/bitlib/bit-algorithms/fill.hpp", "include/bitlib/bit-iterator/bit_reference.hpp"]}
{"id": "C80", "title": "The limits under which programs go right are exact", "statement": "In every state of a program and for every call whose arguments are valid, the call ends with the vectors holding what plain lists would hold and with the answer of the lists if and only if the call is within its limit: sizes below 2^32 where word_count or the float arithmetic is used, fewer than 2^31 elements for debug_string, no oversized shift unless the words are promoted, and for count and rotate with an empty part a readable word at the end.", "quantifier": "every state of any number of vectors, every call and every history of calls", "why_tests_cant": "An equivalence over all states: a test shows one failing or one passing call, not where the border between them runs.", "anchors": ["include/bitlib/bit-containers/bit_vector.hpp", "include/bitlib/bit-algorithms/rotate.hpp", "include/bitlib/bit-algorithms/shift.hpp", "include/bitlib/bit-algorithms/reverse.hpp", "include/bitlib/bit-algorithms/count.hpp", "include/bitlib/bit-algorithms/copy_backward.hpp"]}
{"id": "C81", "title": "The project's own tests pass for every draw exactly when no call shifts a whole word", "statement": "Every test of the suite makes the same calls on bit_vectors and on std::vector<bool>s, drawing sizes, positions and contents at random. For every value that can be drawn, every expectation (of every test but ShrinkToFit, which depends on what std::vector::shrink_to_fit does) is met wherever a shift by the width of a word is defined; for words that are not promoted to int, a test is undefined exactly if one of its calls makes such a shift, and for every test it is stated which draws do. Conversely a test detects what it compares: whatever a call left in the bit_vectors and answered, the test passes only if every compared answer and all compared elements are those of std::vector<bool>.", "quantifier": "every value drawn by the tests, every word width, every number of vectors", "why_tests_cant": "A run of the suite draws a few of the values; the claim is about all of them, and about which of them are undefined.", "anchors": ["test/src/test-copy.cpp", "test/src/test-copy_backward.cpp", "test/src/test-reverse.cpp", "test/src/test-rotate.cpp", "test/src/test-shift.cpp", "test/src/vector_test.cpp", "test/src/fixtures.hpp", "utils/test_utils.hpp"]}
{"id": "C82", "title": "Concurrent calls are independent exactly at the granularity of words", "statement": "Calls made at the same time by several threads, where no thread stores to a word that holds a bit another thread works with, have no data race and no undefined behaviour in any interleaving of their word accesses; all interleavings end after the same number of accesses with the results and the memory of the calls made one after the other. Threads that only read may share all words. Two operations on bits of the same word, even different bits, of which one changes its bit, can race whatever code is generated for them, and an update can be lost.", "quantifier": "every number of threads, every isolated call (all algorithms and reference operations), every code with the effect of the call, every interleaving, every memory", "why_tests_cant": "The interleavings of a run are a few of the possible ones, and a data race need not show.", "anchors": ["include/bitlib/bit-algorithms/copy.hpp", "include/bitlib/bit-algorithms/fill.hpp", "include/bitlib/bit-algorithms/count.hpp", "include/bitlib/bit-iterator/bit_reference.hpp"]}
{"id": "C83", "title": "Programs do not depend on the word type", "statement": "The same program written for bit_vector<W> and run with two different word types W on vectors with the same elements is defined for both, gives the same answers and leaves the same elements, as long as every call is within the limits of the library for both types. The exceptions are the elements vacated by a shift until they are assigned, and the separators of debug_string; and whether a call is within the limits depends on the type: erasing the first of w elements is undefined exactly with (unpromoted) w-bit words.", "quantifier": "every pair of word widths, every program, every vectors, allocators and compilers", "why_tests_cant": "The test suite is typed but compares each word type with the reference separately, for a few sizes; the claim relates all widths, also those not instantiated.", "anchors": ["include/bitlib/bit-containers/bit_vector.hpp", "include/bitlib/bit-algorithms/shift.hpp"]}
{"id": "C84", "title": "libpopcnt executes only instructions the machine supports", "statement": "On every machine that has CPUID leaf 7, for every compiler and every set of -m options the machine can run, popcnt of a readable buffer meets no illegal instruction (neither in the detection code nor in the vector code) and counts its set bits. The flags found at run time are exact: a vector flag is set exactly if the build has vector code, the processor has the instruction set and the operating system saves the registers; the POPCNT flag is withheld where XSAVE is not enabled and the build has vector code. The variable that holds the flags is declared exactly in the builds that use it. get_cpuid does not check that leaf 7 exists; on a processor that answers with its last leaf instead the wrong code can be chosen.", "quantifier": "every build, every machine, every buffer", "why_tests_cant": "A test runs on one machine with one build; the detection matters on the others.", "anchors": ["include/bitlib/bit-algorithms/libpopcnt.h"]}
{"id": "C85", "title": "The benchmarks and the profiling program are defined and measure what they say", "statement": "Every benchmark of bitlib and the profiling program, at every size they are registered with, makes only valid calls, for all contents of the containers, every random draw and every number of iterations: no undefined behaviour, and the containers hold what the same calls do to plain sequences. BM_BitEqual compares equal sequences in every iteration and BM_BitFind finds the one set bit in every iteration; BM_BitReverse and the aligned bit_not benchmark alternate between two states, BM_BitRotate rotates by the sum of its steps, the profiling program moves every bit but the first two by 1028 places in every iteration. At total_bits from 4 to 64 BM_BitShiftLeft and BM_BitShiftRight are undefined. At sizes that float cannot represent, ceil(float(total_bits)/digits) can make a container that is too small.", "quantifier": "every benchmark, size, content, draw and number of iterations", "why_tests_cant": "A benchmark checks nothing; how often its loop runs and with which contents changes from run to run.", "anchors": ["benchmark/src/shift_bench.hpp", "benchmark/src/find_bench.hpp", "benchmark/src/equal_bench.hpp", "benchmark/src/rotate_bench.hpp", "benchmark/src/transform_bench.hpp", "benchmark/src/benchmark_main.cc", "profile/src/main.cpp"]}
{"id": "C86", "title": "linear_overload calls the first valid function", "statement": "A call of a linear_overload calls the first of its functions for which the call is valid, and does nothing if there is none. It never fails to compile. (False for functions with a ref-qualified call operator that are held by value: validity is probed on an rvalue, the call is made on an lvalue. True for all others.)", "quantifier": "every list of functions, every value category they accept, held by value or by reference", "why_tests_cant": "The header is not included anywhere; a test covers particular functors.", "anchors": ["include/bitlib/bit-iterator/linear_overload.hpp"]}
{"id": "C87", "title": "Programs with resize are determined by all bits of the words", "statement": "resize shows bits that were not elements (C31), so what a program sees is not determined by the elements of its vectors; it is determined by all bits of their words. For every member of bit_vector, every algorithm and every answer it is stated exactly what happens to these bits: which removed elements stay behind, where words are dropped, where zeros appear. Every program of valid calls within the limits of C65, resize with any count and value among them, runs without undefined behaviour and answers exactly this, whatever the allocator, the growth policy and the compiler do with shifts by a whole word. Algorithms never change a bit behind the elements. A removed element can come back.", "quantifier": "every program of calls of members, algorithms and resize, every state, every word type", "why_tests_cant": "The bits behind the elements depend on the whole history of a vector; a test sees them only if it grows the vector again at the right moment.", "anchors": ["include/bitlib/bit-containers/bit_vector.hpp"]}
{"id": "C88", "title": "resize behaves as for std::vector<bool> in programs that leave no ones behind", "statement": "In a program that starts without vectors and whose calls satisfy their preconditions and the limits of C65, that does not call erase, removes only zeros with pop_back or resize (or everything with clear), constructs no vector of ones whose length is not a multiple of the word length, and does not ask resize to add ones, every call, resize included, does and answers what it would for std::vector<bool>.", "quantifier": "every such program, every word type", "why_tests_cant": "It is a statement about all programs, including the order of the calls.", "anchors": ["include/bitlib/bit-containers/bit_vector.hpp"]}
{"id": "C89", "title": "Code written against the iterators, references and pointers sees bits that are addressed one by one", "statement": "Any code that uses bit_iterator, bit_reference and bit_pointer only through their operations (copy, ++, --, + n, - n, difference, comparison, *, [n], ->, &, reading, assigning, |=, &=, ^=, set, reset, flip, swap, conversion to bit_value, distance), with arbitrary decisions in between, does what it would do on a sequence whose elements are addressable booleans: the same result, the same bits afterwards, and an access to an element that does not exist is an out-of-bounds access in both. The result does not depend on the word type, on where in a word the sequence begins, or on the compiler builtins. On the elements of a bit_vector it works as on std::vector<bool>, and nothing outside the elements changes.", "quantifier": "every program of such operations (branching on every answer), every memory, every word type", "why_tests_cant": "Tests run particular algorithms; generic code of users can combine the operations in any way.", "anchors": ["include/bitlib/bit-iterator/bit_iterator.hpp", "include/bitlib/bit-iterator/bit_reference.hpp", "include/bitlib/bit-iterator/bit_pointer.hpp"]}
{"id": "C90", "title": "Standard algorithms on bit iterators agree with the library's algorithms", "statement": "std::find, count, equal, fill, copy, move, copy_backward, swap_ranges, reverse, rotate and transform, run element by element on bit iterators, return the same result and leave exactly the same memory as the functions of the library with the same names. (False where the library's function fails: reverse and copy_backward under the shifts of C18, rotate at the limits of C19 and C20, count, find and reverse of an empty range; the standard algorithm works in these cases.)", "quantifier": "all ranges, destinations and contents, every word type", "why_tests_cant": "The tests compare the two on random ranges of limited length.", "anchors": ["README.md", "include/bitlib/bit-algorithms", "include/bitlib/bit-iterator/bit_iterator.hpp"]}
{"id": "C91", "title": "Iterators, references and pointers of a bit_vector stay valid as those of std::vector do", "statement": "A program that keeps iterators, references and pointers into its bit_vectors while it calls members and algorithms, also with the kept iterators as arguments, works as on std::vector<bool>: after a call that does not exceed the capacity known from reserve, a constructor or earlier sizes, and after pop_back, erase, clear, element access and every algorithm, each kept iterator, reference and pointer still designates its position; after move assignment those of the source designate positions of the target. Calls are valid and within the limits of C65. The result does not depend on the compiler's shifts, on the builtins, on the growth policy or on where the vectors lie. After destruction, after reserve beyond the capacity and after push_back at full capacity the reference is dangling: reading or writing through it is undefined.", "quantifier": "every program of such steps (branching on every answer), every heap, every word type, every policy of std::vector", "why_tests_cant": "The tests fetch iterators anew after every call; no test keeps one across a call that may move the storage.", "anchors": ["include/bitlib/bit-containers/bit_vector.hpp", "include/bitlib/bit-iterator/bit_iterator.hpp", "include/bitlib/bit-iterator/bit_reference.hpp"]}
{"id": "C92", "title": "bit_vector with stateful allocators: contents do not depend on them, and storage goes back to the allocator that lent it", "statement": "For an allocator type with state, with any propagation traits and any select_on_container_copy_construction, a program of constructors, assignments, members, algorithms and destructors of bit_vectors (valid calls, within the limits of C65) runs without undefined behaviour, never gives storage to an allocator that has not lent it, and its contents and answers are those of the same program without allocators. After every call each vector has the allocator of the specification, the ledgers of the allocators hold exactly the storage of the vectors, and only the allocators listed for the call were asked. After the destruction of all vectors nothing is lent. Two departures from std::vector are shown: the constructors from a range keep their allocator argument only if it propagates on move assignment, and the constructor from an rvalue asks for storage and leaves its source unchanged.", "quantifier": "every allocator type (traits and states), every program of such calls, every heap, every word type, every policy of std::vector", "why_tests_cant": "All tests use std::allocator, whose objects are all equal; no test has an allocator with state.", "anchors": ["include/bitlib/bit-containers/bit_vector.hpp"]}
{"id": "C93", "title": "Word-parallelism: the algorithms make a bounded number of memory accesses per word, code that goes through iterators at least one per bit", "statement": "A call of copy, move, copy_backward, fill, find, equal, count, transform (unary and binary), swap_ranges, reverse, shift_left, shift_right or rotate makes at most a*(n/w)+b accesses to words (loads and stores, as the source text demands them), where n is the number of bits of the range (of the bits that stay, for the shifts), w the width of a word, and a, b are constants: 3,8 for copy, move, copy_backward and transform; 5,12 for the binary transform; 1,4 for fill; 1,2 for find and count; 3,6 for equal; 18,36 for swap_ranges; 7,37 for reverse; 3,17 and 3,15 for shift_left and shift_right; 90,36 for rotate. Any program that uses iterators, references and pointers only makes between one and three accesses for each bit it reads or changes; the algorithms of the standard library on bit iterators therefore make at least one (fill, find, count, rotate), two (copy, copy_backward, equal, transform, swap_ranges) or three (binary transform) accesses per bit (one bit less for reverse), and w times the accesses of the library's algorithm are at most a constant times those of the algorithm of the standard library, and a constant times w.", "quantifier": "every word width, every memory, all iterators, every program of iterator operations", "why_tests_cant": "The tests check results only, and the benchmarks measure time on a few lengths.", "anchors": ["README.md", "include/bitlib/bit-algorithms/copy.hpp", "include/bitlib/bit-algorithms/rotate.hpp", "include/bitlib/bit-algorithms/swap_ranges.hpp", "include/bitlib/bit-algorithms/reverse.hpp", "include/bitlib/bit-algorithms/count.hpp", "include/bitlib/bit-algorithms/fill.hpp", "include/bitlib/bit-algorithms/find.hpp", "include/bitlib/bit-algorithms/equal.hpp", "include/bitlib/bit-algorithms/transform.hpp", "include/bitlib/bit-algorithms/shift.hpp"]}
{"id": "C94", "title": "Which words an algorithm accesses, and in which order, depends on the positions only; algorithms that copy store only to words of their destination", "statement": "Two calls of copy, move, copy_backward, fill, count, transform (unary and binary), shift_left, shift_right, reverse, swap_ranges or rotate with the same iterators (and the same distance of a shift) that both end make the same loads and stores of words, in the same order, whatever the memory holds, whatever value is filled or counted and whatever operation is applied. find and equal may end early: two calls of find that find the same place make the same accesses, and a call of equal makes the accesses of a comparison that yields true, up to some point. A call accesses only words that hold bits it works with. copy, move, copy_backward and transform store only to words that hold bits of the destination. Reading a bit through a reference loads its word, any change loads and stores it even if the bit already has the value, but a swap of two bits stores only if they differ, so std::swap_ranges on bit iterators, unlike bit::swap_ranges, makes accesses that depend on the contents.", "quantifier": "every word width, all iterators, all pairs of memories, values, operations", "why_tests_cant": "Tests compare results; which words are touched, and whether that depends on the data, is not observable to them.", "anchors": ["include/bitlib/bit-algorithms/copy.hpp", "include/bitlib/bit-algorithms/move.hpp", "include/bitlib/bit-algorithms/fill.hpp", "include/bitlib/bit-algorithms/count.hpp", "include/bitlib/bit-algorithms/find.hpp", "include/bitlib/bit-algorithms/equal.hpp", "include/bitlib/bit-algorithms/transform.hpp", "include/bitlib/bit-algorithms/swap_ranges.hpp", "include/bitlib/bit-algorithms/rotate.hpp", "include/bitlib/bit-algorithms/reverse.hpp", "include/bitlib/bit-algorithms/shift.hpp", "include/bitlib/bit-iterator/bit_reference.hpp"]}
{"id": "C95", "title": "push_back takes amortised constant time per element, and every program on bit_vectors costs no more than the sum of the prices of its calls", "statement": "Count words loaded and stored and requests for storage. If storage that is full grows by at least its k-th part (k = 1: doubling), a program of valid calls on bit_vectors costs at most the prices of its calls and two accesses for each word the vectors have at the start. The price of push_back is two accesses, and 4k+1 more if a word is added; insert, erase and their range forms cost three accesses per word behind the position, a constant, and 4k+1 per word added; insert of n elements adds n/w, insert of a range 3n/w; pop_back, clear, move assignment, resize to a smaller size and destruction are free; copies cost four accesses per word; construction from a count or words three per word, from a range of bits, a range of bool or a string some accesses per element, because those allocate a word for each bit. So n times push_back costs at most 2n + (4k+1)(n/w+1) + 2s for a vector that had s words. With doubling, appending makes r requests only if the vector ends with at least 2^r/4 words. Within the capacity, appending makes no request and at most three accesses per element. Reading an element is one access. The condition on growth is needed: if storage grows only to what is needed, appending until there are s words costs at least s(s-1) accesses and s requests. A constructor makes one request if the vector has words and none else (the list constructor appends one by one); a member makes one exactly if it gives the vector new storage.", "quantifier": "every word width, growth policy, program of calls, start state within the limits of C65", "why_tests_cant": "Amortised bounds are statements about all sequences of calls and all sizes; tests measure time on some.", "anchors": ["include/bitlib/bit-containers/bit_vector.hpp", "include/bitlib/bit-iterator/bit_reference.hpp", "include/bitlib/bit-algorithms/shift.hpp"]}
{"id": "C96", "title": "What a C++20 build computes, whatever std::shift_left and std::shift_right leave in the words they vacate", "statement": "With __cplusplus >= 202002L the word moves of shift_left and shift_right are std::shift_left and std::shift_right, which leave vacated words valid but unspecified. With every conforming standard library: shift_left, reverse, erase, and insert of one element do what they do in the other build. shift_right returns first + n, moves the bits that stay, and changes nothing outside the range except possibly the bits in front of the range in the word of first; it changes none of those, with every library, if and only if n is not a multiple of the word width, or the range starts at a word boundary, or the bits that stay do not reach into a later word. rotate gives the same result with every library if and only if it does not end in a right shift by exactly one word of a range that starts inside a word, which depends on the position and the two lengths only. insert of n elements or of a range at d is right with every library if and only if not (n > 0 is a multiple of the word width, d is inside a word, and the vector has bits in a later word than that of d); otherwise only elements in front of d in the word of d can be wrong. A history of calls is right after every call with every library if and only if all its insertions are of that kind. If the library leaves the words as they are, all programs are the same in both builds.", "quantifier": "every word width, shift semantics, contents, position, length, standard library behaviour, and history within the limits of C35", "why_tests_cant": "A test runs with one standard library, and those in use keep the vacated words; the claim is about every library the standard allows.", "anchors": ["include/bitlib/bit-algorithms/shift.hpp", "include/bitlib/bit-algorithms/rotate.hpp", "include/bitlib/bit-algorithms/reverse.hpp", "include/bitlib/bit-containers/bit_vector.hpp"]}
{"id": "C97", "title": "Iterators, references and pointers to const words cannot be used to change them, and which calls compile for const", "statement": "A program that compiles and can reach a block of memory only through bit iterators, references and pointers to const words leaves the block as it is, whatever else it does. A program that compiles for modifiable words compiles for const words if and only if it calls no operation that changes a bit, and is the same program then. A program compiles with bit_iterator<const It>, as in bit_vector::const_iterator, if and only if it compiles with bit_iterator<It> and never uses ++, --, += or -=. So a range-based for loop over a const bit_vector does not compile; of the const accessors begin, end, cbegin, cend compile, operator[], at, front, back do not; bit_vector::const_reference can be copied to a reference that is written through. Conversions only add const; assignments between iterators or pointers of different types never compile. With const words count and find compile, and change nothing, and no other algorithm does, not even copy from them or equal; with bit_vector::const_iterator no algorithm compiles. Before C++20 shift_left, shift_right, reverse and rotate do not compile for pointers to words. binary_digits exists exactly for the unsigned integer types other than bool and char. The iterator traits form a chain; is_output_iterator is false for every forward iterator; a bit_iterator is of the kinds its iterator is of.", "quantifier": "every program of the operations of bit iterators, references and pointers, every division of the memory into blocks, word width, shift semantics, contents, and every combination of types", "why_tests_cant": "A test has to compile, so it cannot show that a program does not; and that no program can write through const access is a claim about all programs.", "anchors": ["include/bitlib/bit-iterator/bit_iterator.hpp", "include/bitlib/bit-iterator/bit_reference.hpp", "include/bitlib/bit-iterator/bit_pointer.hpp", "include/bitlib/bit-iterator/bit_details.hpp", "include/bitlib/bit-algorithms/type_traits.hpp", "include/bitlib/bit-containers/bit_vector.hpp", "include/bitlib/bit-algorithms/bit_algorithm_details.hpp"]}
{"id": "C98", "title": "The algorithms form word iterators of their arrays only, except in the listed cases", "statement": "Iterators may only be moved to the words of their array and to its end; anything else is undefined even if it is never dereferenced. For ranges inside their arrays, copy, move, transform (one and two ranges), equal, swap_ranges, fill and find never move a word iterator anywhere else. count takes the address of the word at the end of the array exactly if the range begins inside the last word and ends at the end. copy_backward moves a word iterator before the array exactly if the destination begins at the first bit of its array, reaches at least the second word, and its whole words are not copied as a block. shift_left forms first + n whatever n is, and leaves the array exactly if that does. shift_right forms last - n, and moves a word iterator before the array exactly if the range begins in the first word, whole words are moved, and the distance is no number of words and leaves the bits of the first word together. reverse and rotate leave the array exactly if the shift_right they end with does. In all other cases the algorithm with its iterators checked does what it does without checks.", "quantifier": "for all word widths, meanings of oversized shifts, memories, arrays, ranges and destinations in them, shift distances and operations", "why_tests_cant": "The iterators are never dereferenced, so the results are right on common machines; only an implementation with checked iterators, or reasoning over all ranges, shows the undefined steps.", "anchors": ["include/bitlib/bit-algorithms/copy_backward.hpp:73-89", "include/bitlib/bit-algorithms/count.hpp:36-110", "include/bitlib/bit-algorithms/shift.hpp:31-376", "include/bitlib/bit-algorithms/reverse.hpp:27-111", "include/bitlib/bit-algorithms/rotate.hpp:102-258", "include/bitlib/bit-algorithms/copy.hpp", "include/bitlib/bit-algorithms/swap_ranges.hpp:23-192"]}
{"id": "C99", "title": "The members of bit_vector form word iterators of the vector only, except insert in its first word", "statement": "Moving an iterator of the word vector to anything but a word or the end is undefined. The constructors, push_back, debug_string, at, erase, and resize(count, value) never do so, and they never leave the array of a range of bits they are given (erase of a range and resize up to 2^32 elements). operator[](i) takes a word that does not exist exactly if i is not less than the number of bits in the words, front() exactly if there is no word, back() exactly if the vector is empty. insert of one element, of n equal elements or of a range of n bits before position d decrements a word iterator that is at the first word exactly if d is in the first word, a whole word of elements is moved behind the bits of the last word, and n is no multiple of the word size and leaves the elements of the first word together. So inserting one element at the front of any vector that holds at least two words of elements afterwards is undefined. In all other cases the member with its iterators checked does what it does without checks.", "quantifier": "for all word widths, meanings of oversized shifts, allocation policies, heaps, vectors whose elements are in their words, positions, counts, ranges, values and strings", "why_tests_cant": "The iterator before the first word is never dereferenced, so the results are right on common machines; a library with checked iterators aborts, and only reasoning over all vectors shows when.", "anchors": ["include/bitlib/bit-containers/bit_vector.hpp:220-312", "include/bitlib/bit-containers/bit_vector.hpp:356-462", "include/bitlib/bit-containers/bit_vector.hpp:506-627", "include/bitlib/bit-containers/bit_vector.hpp:651-670", "include/bitlib/bit-algorithms/shift.hpp:238-376", "include/bitlib/bit-iterator/bit_iterator.hpp:201-235"]}
{"id": "C100", "title": "Which constructor of bit_vector an initialisation calls, and what it builds", "statement": "For bit_vector<W> v(args), v{args}, v = {args} and v = arg the types of the arguments decide which constructor is called. In parentheses: nothing or an allocator gives an empty vector; a number n gives n zeros; a number and a bit (bit_value or bit_reference) n times the bit; a string, string_view or const char* its digits; two iterators of one type over bool or over W the elements or all bits of the words; two bit iterators over modifiable words their range; an initializer_list<bool> or initializer_list<W> its elements or bits; another vector a copy; an allocator may follow, except after a string that is not a string_view and after a vector that is not an rvalue, for which the constructor is declared but not defined. Every other call is rejected, among them bit_vector(n, true) and bit_vector(n, 0). In braces: a list of bool gives these elements; a list of values of type W (or of types promoted to W) the bits of the words; every other list of numbers is ambiguous, so {1, 0, 1} compiles for no W; a list of bits never compiles, since the constructor for it has a body that does not; a list with a pointer and otherwise pointers, bool and numbers gives the truth of each of them or is rejected as narrowing, so that {\"101\"} is not a string and {p, q} no range of pointers; everything else is as in parentheses without narrowing, and = excludes explicit constructors. v = arg takes a string_view, an initializer_list or a vector only. Where an initialisation compiles for std::vector<bool> too, both hold the same elements, except that bit_vector takes all bits of given words.", "quantifier": "for all word widths, argument lists of any length over the listed kinds of types with all values, implementations (types of the integers, promotions, whether pointers narrow), heaps, allocation policies and meanings of oversized shifts", "why_tests_cant": "Whether a call compiles is not seen by a test suite that compiles, and there are infinitely many argument lists; the tests use five forms.", "anchors": ["include/bitlib/bit-containers/bit_vector.hpp:94-117", "include/bitlib/bit-containers/bit_vector.hpp:204-328", "include/bitlib/bit-iterator/bit_value.hpp:41-47", "include/bitlib/bit-iterator/bit_reference.hpp:45-51"]}
{"id": "C101", "title": "Expressions that mix bits, bool and numbers: what compiles, which function is called, and what is computed", "statement": "In an expression of any depth built from variables of type bit_value, references to bits, bool and numbers with ==, !=, <, <=, >, >=, &, |, ^, ~, !, &&, ||, ?:, the comma, =, &=, |=, ^=, conversions, initialisations, set, reset, flip, assign, swap and std::swap, overload resolution chooses functions whose calls compute the boolean meaning of the expression: the same result, the same change of the bits in memory and in objects, and a failed assertion exactly if assign(n, p) or bit_value(n, p) name a position that does not exist. Bits and numbers do not mix: x == 1, x & true, x = 0, bit_value b = true, bool b = x, x.set(y) and c ? x : 1 do not compile for a bit x, comparisons do not chain, x == !y does not compile while x == ~y does. bit_value(n) and b.assign(n) do not compile for numbers of signed types or char, while r.assign(n) does. What is const, or a bit of a const word, cannot be changed. bit_value::swap(bit_reference) never compiles, nor does a choice between a reference to a bit of W and of const W. bit_value(n) and r.assign(n) take the lowest bit of n, bit_value(bool(n)) and r.set(n) whether n is zero. std::swap of two references copies the second bit to the first and loses a bit, while swap found in namespace bit exchanges them. An expression without side effects yields the same in every order of evaluation; r.flip() == r and r.flip() &= r do not.", "quantifier": "for all expressions, scopes, word widths, addresses, memories, values, orders of evaluation that the language permits, operators of the language on numbers and meanings of oversized shifts", "why_tests_cant": "Expressions that do not compile are not in a test suite, there are infinitely many that do, and a compiler uses one order of evaluation.", "anchors": ["include/bitlib/bit-iterator/bit_value.hpp:40-127", "include/bitlib/bit-iterator/bit_value.hpp:155-432", "include/bitlib/bit-iterator/bit_reference.hpp:45-121", "include/bitlib/bit-iterator/bit_reference.hpp:184-438", "include/bitlib/bit-iterator/bit_details.hpp:41-54"]}
{"id": "C102", "title": "Which function an unqualified call of an algorithm reaches", "statement": "copy(first, last, d) and the other algorithms, called without a namespace, reach the library's function whenever it takes the arguments, whatever using-declarations and using-directives are in force, with two exceptions. fill, find and count with a value such as v[0] or *it, a bit_reference, reach the function of std if the iterators are those of a vector or std is visible, and the library's if they are pointers; both leave the same memory and return the same, except on empty ranges. using std::swap; swap(r, q) on two named references of one type is ambiguous, and the library's swap in every other case, in particular in std::iter_swap. All unqualified calls in the headers with bit iterators reach the library, while distance on word iterators reaches std for iterators of a vector and nothing for pointers. transform to iterators of another type is std::transform or nothing. Copying from const words and comparing them does not compile unqualified, as the library's function is reached and does not compile, although std::copy, std::copy_backward and std::equal do.", "quantifier": "for all names, lists of arguments of the kinds in the model, forms of the call, C++17 and C++20; for the results all word widths, memories, ranges, references and meanings of oversized shifts", "why_tests_cant": "The tests call with bit:: and std:: only, and a call that reaches another function with the same result passes every test.", "anchors": ["include/bitlib/bit-algorithms/copy.hpp:30-34", "include/bitlib/bit-algorithms/fill.hpp:38-40", "include/bitlib/bit-algorithms/find.hpp:33-37", "include/bitlib/bit-algorithms/count.hpp:34-40", "include/bitlib/bit-algorithms/transform.hpp:34-39", "include/bitlib/bit-algorithms/bit_algorithm_details.hpp:29-48", "include/bitlib/bit-algorithms/bit_algorithm_details.hpp:279-307", "include/bitlib/bit-iterator/bit_reference.hpp:107-121", "include/bitlib/bit-containers/bit_vector.hpp:219-228", "include/bitlib/bit-containers/bit_vector.hpp:505-626", "include/bitlib/bit-algorithms/rotate.hpp:30-250"]}
{"id": "C103", "title": "Which calls of the constexpr functions are constant expressions", "statement": "A call of an algorithm that is declared constexpr, on bits of an array, is a constant expression exactly in these cases, and then does what it does at run time. copy, move, copy_backward, transform and equal: the range is empty, as distance is not constexpr. count: both iterators point into one word of the array. reverse: the range is inside one word, or in C++20 as many bits are before the range in its first word as after it in its last. swap_ranges: the range is empty, or in C++20 goes beyond one word and starts at the same position in a word as the other range. find: in C++20 unless the range starts inside a word and ends with that word or before; in C++17 only for a range that starts inside a word and goes beyond it, and only if the bit is found in that word. is_within<N>: always. A program that uses iterators, references and pointers is one exactly if it runs, keeps to the array and uses neither swap nor distance.", "quantifier": "for all word widths, arrays, memories, ranges, values, meanings of oversized shifts, programs, C++17 and C++20; builds without Highway", "why_tests_cant": "Whether a call is a constant expression depends on the arguments, and a test has to be compiled for each; the tests have no constant expressions with algorithms.", "anchors": ["include/bitlib/bit-algorithms/copy.hpp:30-51", "include/bitlib/bit-algorithms/move.hpp:25-46", "include/bitlib/bit-algorithms/copy_backward.hpp:27-48", "include/bitlib/bit-algorithms/transform.hpp:34-51", "include/bitlib/bit-algorithms/transform.hpp:130-148", "include/bitlib/bit-algorithms/equal.hpp:29-50", "include/bitlib/bit-algorithms/find.hpp:33-124", "include/bitlib/bit-algorithms/count.hpp:34-117", "include/bitlib/bit-algorithms/reverse.hpp:27-113", "include/bitlib/bit-algorithms/swap_ranges.hpp:23-112", "include/bitlib/bit-algorithms/bit_algorithm_details.hpp:27-102", "include/bitlib/bit-algorithms/libpopcnt.h:677-767", "include/bitlib/bit-iterator/bit_reference.hpp:52-121"]}
{"id": "C104", "title": "transform with an arbitrary operation: which calls are made, with which words, and what is written", "statement": "For an operation that may keep data of its own, change data elsewhere and throw, transform (unary and binary) cuts the destination where words end and makes one call for each piece, in order. The word given to the call has the source bits of the piece where they are to be written, zeros below them, and above them the bits that follow in memory up to the end of the word in which the source of the piece begins, also when these are outside of the range, then zeros. Of the result only the bits of the piece are written, before the next call. If a call throws, the exception leaves transform, the pieces of the earlier calls are written and nothing else. There is no undefined behaviour, and no bit outside of the destination changes, whatever the operation does and however the ranges overlap. The number of calls is the number of words with bits of the destination. What calls change in the object itself is seen by the following calls, except that the whole words of ranges that are aligned alike are given to a copy (std::transform), so that the call for the last piece sees the object as it was before them.", "quantifier": "for all word widths, operations, states of the object and of what it refers to, exceptions, memories, ranges, destinations and overlaps; builds without Highway, or operations other than std::bit_not", "why_tests_cant": "The tests use std::bit_not and std::bit_and on ranges that do not overlap; an operation that looks at the whole word, counts or throws is never tried, and there are infinitely many.", "anchors": ["include/bitlib/bit-algorithms/transform.hpp:34-128", "include/bitlib/bit-algorithms/transform.hpp:130-212", "include/bitlib/bit-algorithms/bit_algorithm_details.hpp:104-142", "include/bitlib/bit-iterator/bit_details.hpp:744-761"]}
{"id": "C105", "title": "Builds with NDEBUG: the algorithms do the same unless an assertion would have failed, and exactly which assertions can fail", "statement": "For every call of distance, get_word, write_word, copy, move, copy_backward, fill, both transforms, reverse, rotate, shift_left, shift_right, swap_ranges, find, count and equal, and for every program made of such calls, started with any memory: either an assertion fails in the build with assertions, or the build with NDEBUG does exactly the same, with the same result and memory or the same undefined behaviour. So calls that meet their preconditions have the documented effect in both builds. With proper iterators an assertion fails exactly if the range is reversed (for rotate: one of its two parts; for get_word: if more bits are asked for than a word has), at once and without any access to memory, and never later, even if words of the ranges do not exist and however the ranges overlap. find is the only algorithm that does not check its range: a reversed range may go unnoticed. An assertion fails in find exactly if last is in the word of first, before it and not at the start of the word, and the word exists; from any other reversed range find returns exactly if first is not at the start of its word and a bit with the value follows in it, and then it returns the first such bit. Without assertions, distance of a reversed range is the signed distance.", "quantifier": "for all word widths, shift semantics (the exact condition: words of any width promoted to any type), memories, calls, arguments and programs of calls", "why_tests_cant": "The tests are run in one build; comparing both builds on all inputs, and showing that no assertion inside of the algorithms can fail for any input, is not a finite task.", "anchors": ["include/bitlib/bit-iterator/bit_details.hpp:375-388", "include/bitlib/bit-algorithms/bit_algorithm_details.hpp:29-41", "include/bitlib/bit-algorithms/bit_algorithm_details.hpp:104-142", "include/bitlib/bit-algorithms/find.hpp:33-123"]}
{"id": "C106", "title": "copy, move, transform and copy_backward with an overlap they do not allow for: what they write, and that they are right exactly if the destination is in one word", "statement": "Let the destination of transform (with an operation that acts bit by bit), copy or move begin s bits to the right of the source, overlapping it or not. The call ends without undefined behaviour and returns the end of the destination; nothing outside of the destination changes; and each bit of the destination becomes (the operation of) what its source holds when the words of the destination before its own have been written: the bit before the call, unless the source is in one of those words. The same holds for binary transform with both sources anywhere. If s is at least the width of a word, copy gives what copying bit by bit from the left gives: the first s bits repeat. If the destination is in one word, the result is the one for disjoint ranges, whatever the overlap. For copy_backward to the left of its source the same is true from the right to the left. If the destination of copy overlaps the source to the right, or that of copy_backward to the left, and is not in one word, then for some contents of the words the result is wrong. (Calls that hand overlapping words to std::copy or std::copy_backward, against their preconditions, are excluded.)", "quantifier": "for all word widths, shift semantics, memories, ranges, distances and operations that act bit by bit", "why_tests_cant": "The tests use separate vectors; which overlaps are harmless depends on positions, lengths, distances and contents together.", "anchors": ["include/bitlib/bit-algorithms/copy.hpp:29-105", "include/bitlib/bit-algorithms/move.hpp:29-101", "include/bitlib/bit-algorithms/transform.hpp:34-125", "include/bitlib/bit-algorithms/copy_backward.hpp:27-101"]}
