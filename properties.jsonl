{"id": "C01", "title": "Sequential Huffman coding transports coefficients exactly", "statement": "If a sequential Huffman-coded scan is written from any quantized DCT coefficient arrays whose values are in range for the data precision, with any Huffman tables that pass validation and contain every needed symbol, any number of components and any restart interval, then reading the resulting bytes (followed by any marker) returns exactly the same coefficients, with no warning.", "quantifier": "all coefficient blocks in range, all MCU layouts, all valid Huffman tables, all restart intervals, all data following the scan", "why_tests_cant": "The input space (blocks x tables x restart intervals x bit-buffer alignments) is unbounded; a single wrong alignment or table boundary loses data.", "anchors": ["jchuff.c:encode_one_block", "jchuff.c:encode_mcu_huff", "jchuff.c:flush_bits", "jdhuff.c:decode_mcu_slow", "jdhuff.c:jpeg_fill_bit_buffer", "jdhuff.c:jpeg_huff_decode", "jdmarker.c:read_restart_marker"]}
{"id": "C02", "title": "Progressive Huffman coding transports coefficients exactly", "statement": "Encoding coefficients with a progressive script (DC first/refine, AC first/refine, spectral selection, EOB runs, correction bits, restarts) and decoding all the scans gives back exactly the coefficients at the precision sent; a script that ends at Al=0 for every coefficient gives back the original coefficients.", "quantifier": "all coefficient arrays in range, all legal scan parameters, all valid tables, all numbers of blocks (EOB runs of any length)", "why_tests_cant": "EOB runs and buffered correction bits span arbitrarily many blocks; the interaction space is unbounded.", "anchors": ["jcphuff.c:encode_mcu_DC_first", "jcphuff.c:encode_mcu_AC_first", "jcphuff.c:encode_mcu_DC_refine", "jcphuff.c:encode_mcu_AC_refine", "jcphuff.c:emit_eobrun", "jdphuff.c:decode_mcu_AC_refine", "jdphuff.c:decode_mcu_AC_first"]}
{"id": "C03", "title": "Lossless mode is lossless", "statement": "Compressing any image with jpeg_enable_lossless(predictor 1..7, point transform Pt) and decompressing it returns every sample shifted right then left by Pt; with Pt = 0 the output equals the input exactly, for 8-, 12- and 16-bit samples and any restart interval (in rows).", "quantifier": "all sample arrays, all widths/heights, all 7 predictors, all Pt below the precision", "why_tests_cant": "All sample values and image sizes; modular wrap-around of differences occurs on rare data.", "anchors": ["jclossls.c", "jdlossls.c", "jclhuff.c:encode_mcus_huff", "jdlhuff.c:decode_mcus"]}
{"id": "C04", "title": "Arithmetic coding transports binary decisions exactly", "statement": "Any sequence of binary decisions with any sequence of statistics-bin choices coded by the arithmetic encoder is recovered exactly by the arithmetic decoder using the same bins.", "quantifier": "all decision sequences and all context selections", "why_tests_cant": "Carry propagation over stacked 0xFF bytes and end-of-data trimming depend on arbitrarily long histories.", "anchors": ["jcarith.c:arith_encode", "jcarith.c:finish_pass", "jdarith.c:arith_decode"]}
{"id": "C05", "title": "Optimized Huffman tables are always usable", "statement": "For every symbol-frequency table with at most 254 distinct used symbols and fewer than 10^9 occurrences, optimize_coding generates a Huffman table that the encoder's and decoder's table checks accept: it assigns exactly one code of at most 16 bits to exactly the used symbols, no code is all ones, no code is a prefix of another, and no symbol is dropped or duplicated. The only other outcome is the code-length-overflow error, which needs at least 9227464 occurrences.", "quantifier": "all frequency tables", "why_tests_cant": "The space of frequency tables is infinite, including Fibonacci-like distributions that force length limiting.", "anchors": ["jchuff.c:jpeg_gen_optimal_table", "jchuff.c:jpeg_make_c_derived_tbl"]}
{"id": "C06", "title": "Entropy-coded data never imitates a marker", "statement": "In every entropy-coded segment produced by the Huffman encoders, every 0xFF byte is followed by 0x00, so the only markers in a scan are the RSTn markers placed by the encoder at exactly every restart interval, in order modulo 8.", "quantifier": "all coefficient data, tables and restart intervals", "why_tests_cant": "Depends on every possible bit alignment of every possible code sequence.", "anchors": ["jchuff.c:EMIT_BYTE", "jchuff.c:FLUSH", "jchuff.c:emit_restart", "jcphuff.c:emit_bits"]}
{"id": "C07", "title": "An accepted Huffman table decodes uniquely, fast path = slow path", "statement": "Every DHT table accepted by the validator describes a prefix code in which no code is all ones; encoder and decoder derive the same code; the 8-bit lookahead fast path and the bit-by-bit path give the same symbol and consume the same number of bits; tables that are over-subscribed or contain an all-ones code are rejected.", "quantifier": "all DHT tables (counts and values), all following bits", "why_tests_cant": "2^(17*8) x 256! tables.", "anchors": ["jdhuff.c:jpeg_make_d_derived_tbl", "jchuff.c:jpeg_make_c_derived_tbl", "jdhuff.h:HUFF_DECODE", "jdhuff.c:jpeg_huff_decode"]}
{"id": "C08", "title": "Huffman decoding of arbitrary bytes stays in bounds and terminates", "statement": "For every byte string and every accepted Huffman table, decoding a block terminates, writes only to the 64 coefficient slots, indexes huffval only below 256, and yields values that fit; running out of data yields zero bits and one warning per segment, never a hang.", "quantifier": "all input bytes, all accepted tables", "why_tests_cant": "Corrupt input space is unbounded; fuzzing only samples it.", "anchors": ["jdhuff.c:decode_mcu_slow", "jdhuff.c:jpeg_huff_decode", "jutils.c:jpeg_natural_order", "jdphuff.c"]}
{"id": "C09", "title": "Decoding is independent of how the input is chunked (suspension)", "statement": "With a suspending data source, what is read from headers, at restart markers and in sequential Huffman-coded scans does not depend on how the bytes were split across fill_input_buffer calls: header fields and tables, decoded coefficients, DC predictions, restart numbers, premature-end warnings and the position in the stream (unread bits and marker) are those obtained when all the bytes are in the buffer at once, however often a call suspends and is repeated, on blocks zeroed again or not. Once all data up to EOI has arrived, no call suspends. Known exceptions: warnings about bad codes, extraneous bytes and resynchronisation may be repeated or differ in their counts, and coefficients can differ if the data contains FF FF 00 (see C48).", "quantifier": "all byte streams and all ways of splitting them", "why_tests_cant": "Exponentially many chunkings, at every byte position.", "anchors": ["jdhuff.c:decode_mcu", "jdhuff.c:decode_mcu_slow", "jdhuff.c:decode_mcu_fast", "jdhuff.c:process_restart", "jdhuff.c:jpeg_fill_bit_buffer", "jdmarker.c:read_markers", "jdmarker.c:read_restart_marker", "jdmarker.c:jpeg_resync_to_restart"]}
{"id": "C10", "title": "Header markers round-trip", "statement": "DQT, DHT, SOF, SOS, DRI and DAC segments written by the library are parsed back to exactly the tables and parameters that were written, including 16-bit quantization tables and the merged multi-table DQT/DHT segments.", "quantifier": "all tables and parameters in the ranges the encoder accepts", "why_tests_cant": "All table contents; length fields and precision switches depend on values.", "anchors": ["jcmarker.c:emit_dqt", "jcmarker.c:emit_multi_dqt", "jcmarker.c:emit_dht", "jcmarker.c:emit_multi_dht", "jcmarker.c:emit_sof", "jcmarker.c:emit_sos", "jcmarker.c:emit_dri", "jdmarker.c:get_dqt", "jdmarker.c:get_dht", "jdmarker.c:get_sof", "jdmarker.c:get_sos", "jdmarker.c:get_dri"]}
{"id": "C11", "title": "Marker parsing of arbitrary bytes is safe", "statement": "For every byte string, parsing any marker segment ends in success, a reported error, or a suspension request; on success exactly the declared segment length was consumed, stored table indexes are below their array sizes, and component/sampling limits hold.", "quantifier": "all byte strings", "why_tests_cant": "Unbounded malformed inputs.", "anchors": ["jdmarker.c:get_dht", "jdmarker.c:get_dqt", "jdmarker.c:get_sof", "jdmarker.c:get_sos", "jdmarker.c:get_dac", "jdmarker.c:get_dri", "jdmarker.c:next_marker"]}
{"id": "C12", "title": "Memory destination returns exactly the emitted bytes", "statement": "With jpeg_mem_dest, for every sequence of emitted bytes and every initial caller buffer size (including NULL/0), the final (buffer,size) pair holds exactly those bytes, in order, no byte is ever written past the end of a buffer, the buffer doubles on each overflow, and every library-allocated intermediate buffer is freed exactly once.", "quantifier": "all byte sequences, all initial buffer sizes, all interleavings of bulk and single writes", "why_tests_cant": "Failures occur only at exact buffer-boundary coincidences.", "anchors": ["jdatadst.c:empty_mem_output_buffer", "jdatadst.c:term_mem_destination", "jdatadst.c:jpeg_mem_dest_internal"]}
{"id": "C13", "title": "Encoded bytes do not depend on output-buffer boundaries", "statement": "The byte stream delivered to the destination manager by the Huffman encoder is the same whatever the sizes of the buffers the destination supplies, and when the destination suspends and the MCU is retried no byte is lost or duplicated.", "quantifier": "all schedules of output buffer sizes, all MCUs, all suspension points", "why_tests_cant": "All schedules of buffer exhaustion and suspension.", "anchors": ["jchuff.c:STORE_BUFFER", "jchuff.c:LOAD_BUFFER", "jchuff.c:dump_buffer", "jchuff.c:encode_mcu_huff"]}
{"id": "C14", "title": "Input past the end of data behaves as EOI, skipping is exact", "statement": "A memory or stdio source that runs out supplies an EOI marker (FF D9) with a warning, forever; skip_input_data(n) drops exactly n bytes of the virtual stream and is equivalent to reading them one at a time; n <= 0 is a no-op.", "quantifier": "all input buffers, all skip amounts, all refill sizes", "why_tests_cant": "All interleavings of refills and skips.", "anchors": ["jdatasrc.c:fill_mem_input_buffer", "jdatasrc.c:fill_input_buffer", "jdatasrc.c:skip_input_data"]}
{"id": "C15", "title": "Quality setting gives legal, monotone quantization tables", "statement": "For every quality value and base table, every quantizer lies in 1..32767 (1..255 when baseline is forced), and a higher quality never yields a larger quantizer.", "quantifier": "all integer qualities, all base tables", "why_tests_cant": "Ordering claim over all pairs of qualities and all tables.", "anchors": ["jcparam.c:jpeg_add_quant_table", "jcparam.c:jpeg_float_quality_scaling"]}
{"id": "C16", "title": "Reciprocal quantization equals rounded division", "statement": "Quantization through the precomputed reciprocal/correction/shift divisors gives exactly round-half-away-from-zero division of the DCT value by the divisor, for every 16-bit divisor and every DCT value that can occur.", "quantifier": "all divisors 1..65535 reachable, all 16-bit DCT values", "why_tests_cant": "2^16 x 2^16 pairs; correctness relies on a number-theoretic argument.", "anchors": ["jcdctmgr.c:compute_reciprocal", "jcdctmgr.c:quantize", "jcdctmgr.c:start_pass_fdctmgr"]}
{"id": "C17", "title": "Built-in progressive scripts are legal and complete", "statement": "For every component count, color space, compression profile and DC scan mode, jpeg_simple_progression fills exactly the number of scans it announces (never overrunning the allocated script space), the script passes scan validation, and it transmits every bit of every coefficient.", "quantifier": "all component counts 1..10, color spaces, profiles, modes", "why_tests_cant": "The configuration product is not enumerated by tests and overruns are silent.", "anchors": ["jcparam.c:jpeg_simple_progression", "jcparam.c:fill_scans", "jcparam.c:fill_dc_scans", "jcmaster.c:validate_script"]}
{"id": "C18", "title": "Scan optimization always emits a legal, complete and best-found progression", "statement": "With optimize_scans on, whatever the sizes of the trial scans, the set of scans finally copied to the output are scans that were really encoded, form a legal progressive script, transmit every bit of every coefficient exactly once, and the selected Al, frequency split and DC interleave have the least total cost among those tried.", "quantifier": "all functions from trial scans to byte sizes, 1 or 3 components, all dc_scan_opt_modes, optimize_coding on or off", "why_tests_cant": "Depends on all possible orderings of 23 or 64 scan sizes.", "anchors": ["jcmaster.c:select_scans", "jcmaster.c:select_scan_parameters", "jcmaster.c:copy_buffer", "jcparam.c:jpeg_search_progression"]}
{"id": "C19", "title": "Scan-script validation is sound and complete", "statement": "A progressive script is accepted exactly when every scan has legal parameters and each coefficient's bits are sent in order with no gap, repeat or AC-before-DC, and every component's DC is sent; a sequential/lossless script is accepted exactly when each component is sent exactly once.", "quantifier": "all scan scripts of any length", "why_tests_cant": "Unbounded scripts.", "anchors": ["jcmaster.c:validate_script"]}
{"id": "C20", "title": "RGB to YCbCr conversion is in range and accurate", "statement": "For every 8- or 12-bit RGB triple, converted Y, Cb, Cr lie in 0..MAXJSAMPLE without clamping, each is within one unit of the exact JFIF value, and gray input (R=G=B=v) gives Y=v, Cb=Cr=CENTER.", "quantifier": "all RGB triples", "why_tests_cant": "2^24 (2^36) triples per format.", "anchors": ["jccolor.c:rgb_ycc_start", "jccolext.c:rgb_ycc_convert_internal", "jccolext.c:rgb_gray_convert_internal"]}
{"id": "C21", "title": "YCbCr to RGB conversion is clamped, accurate and inverts the forward conversion closely", "statement": "For every YCbCr triple the output is in 0..MAXJSAMPLE with the range-limit table indexed in bounds; gray stays gray; converting RGB to YCbCr and back changes each channel by a small bounded amount.", "quantifier": "all triples", "why_tests_cant": "2^24 triples; index-range claim on the limit table.", "anchors": ["jdcolor.c:build_ycc_rgb_table", "jdcolext.c:ycc_rgb_convert_internal", "jdmaster.c:prepare_range_limit_table"]}
{"id": "C22", "title": "Upsampling preserves constants and never overshoots", "statement": "Fancy (triangle), box and integral upsampling produce output samples that lie between the minimum and maximum of the input samples, reproduce constant rows exactly and produce exactly the required number of samples.", "quantifier": "all rows of all widths", "why_tests_cant": "All widths including the width-1/2/3 edge cases and all sample values.", "anchors": ["jdsample.c:h2v1_fancy_upsample", "jdsample.c:h2v2_fancy_upsample", "jdsample.c:h1v2_fancy_upsample", "jdsample.c:int_upsample"]}
{"id": "C23", "title": "Downsampling preserves constants and never overshoots", "statement": "Box downsampling (h2v1, h2v2, integral) outputs lie between min and max of the averaged samples, constants are preserved, and edge expansion only replicates the last column.", "quantifier": "all rows of all widths, all factors", "why_tests_cant": "All widths and values.", "anchors": ["jcsample.c:int_downsample", "jcsample.c:h2v1_downsample", "jcsample.c:h2v2_downsample", "jcsample.c:expand_right_edge"]}
{"id": "C24", "title": "Lossless transforms are exact and obey the dihedral group laws", "statement": "On images with whole iMCUs, flip-h, flip-v, transpose, transverse, rot90, rot180, rot270 of coefficient arrays are bijective; each reflection applied twice is the identity, rot90 four times is the identity, rot90 then rot270 is the identity, and each composite equals the corresponding named transform.", "quantifier": "all coefficient arrays, all sizes, all sampling factors", "why_tests_cant": "All image sizes and contents.", "anchors": ["transupp.c:do_flip_h", "transupp.c:do_flip_v", "transupp.c:do_transpose", "transupp.c:do_rot_90", "transupp.c:do_rot_270", "transupp.c:do_rot_180", "transupp.c:do_transverse"]}
{"id": "C25", "title": "Coefficient-domain transforms agree with pixel-domain transforms", "statement": "Negating odd-frequency coefficients / transposing a block has, under the exact (real) inverse DCT, exactly the effect of mirroring / transposing the 8x8 pixel block.", "quantifier": "all coefficient blocks", "why_tests_cant": "An identity over all real-valued blocks.", "anchors": ["transupp.c:do_flip_h", "transupp.c:do_flip_v", "transupp.c:do_transpose"]}
{"id": "C26", "title": "Perfect-transform test and edge trimming are exact", "statement": "jtransform_perfect_transform returns true exactly when the edges that the requested transform mirrors are whole iMCUs; trimming reduces the dimension to the largest whole number of iMCUs (leaving an image smaller than one iMCU untouched).", "quantifier": "all image sizes and iMCU sizes", "why_tests_cant": "All sizes.", "anchors": ["transupp.c:jtransform_perfect_transform", "transupp.c:trim_right_edge", "transupp.c:trim_bottom_edge"]}
{"id": "C27", "title": "Image geometry is consistent between encoder and decoder", "statement": "For every image size up to 65500 and every legal sampling factor, encoder and decoder compute the same block counts, MCU counts and last-column/last-row sizes, the MCU walk visits every real block of every component exactly once, and dummy blocks are exactly the rest.", "quantifier": "all dimensions and sampling factors", "why_tests_cant": "65500^2 sizes x sampling combinations.", "anchors": ["jcmaster.c:initial_setup", "jcmaster.c:per_scan_setup", "jdinput.c:initial_setup", "jdinput.c:per_scan_setup", "jccoefct.c:compress_data", "jdcoefct.c:decompress_onepass", "jutils.c:jdiv_round_up"]}
{"id": "C28", "title": "ICC profiles survive embedding", "statement": "Writing any ICC profile of 1 .. 255*65519 bytes and reading it back returns exactly the same bytes, regardless of other APP/COM markers interleaved and of the order in which the chunks appear; missing, duplicated or inconsistent chunks are rejected.", "quantifier": "all profile contents and lengths, all marker orders", "why_tests_cant": "Chunk-boundary lengths and permutations.", "anchors": ["jcicc.c:jpeg_write_icc_profile", "jdicc.c:jpeg_read_icc_profile"]}
{"id": "C29", "title": "API call order is enforced", "statement": "For every sequence of compression or decompression API calls, a call made in a state that does not permit it raises JERR_BAD_STATE (never proceeds), abort returns any object to its start state, and a finished or aborted object can be reused.", "quantifier": "all finite call sequences", "why_tests_cant": "Unbounded call histories.", "anchors": ["jcapimin.c", "jcapistd.c", "jdapimin.c", "jdapistd.c", "jctrans.c", "jdtrans.c"]}
{"id": "C30", "title": "Restart resynchronization decision is safe", "statement": "On a bad restart marker the recovery routine always ends with one of: discard, advance, or leave marker, it never loops without consuming input, the expected marker is always accepted at once and the restart counter always advances modulo 8.", "quantifier": "all marker values, all expected restart numbers, all following data", "why_tests_cant": "Corrupt data sequences are unbounded.", "anchors": ["jdmarker.c:jpeg_resync_to_restart", "jdmarker.c:read_restart_marker", "jdmarker.c:next_marker"]}
{"id": "C31", "title": "TurboJPEG size functions never under-report", "statement": "tj3YUVPlaneWidth/Height/Size return exactly the padded plane geometry (0 on any invalid argument or a dimension over INT_MAX); tj3YUVBufSize is exactly the sum of its padded planes and never wraps; tj3JPEGBufSize is exact, monotone in width and height and more than twice the planar image, for every image whose padded area fits an int (beyond that the source multiplies ints and overflows; the model marks it undefined).", "quantifier": "all widths, heights, strides, alignments, subsamplings", "why_tests_cant": "Overflow corner cases in 32/64-bit arithmetic.", "anchors": ["turbojpeg.c:tj3YUVPlaneSize", "turbojpeg.c:tj3YUVBufSize", "turbojpeg.c:tj3YUVPlaneWidth", "turbojpeg.c:tj3YUVPlaneHeight", "turbojpeg.c:tj3JPEGBufSize"]}
{"id": "C32", "title": "Inverse DCT output is always a legal sample", "statement": "For every coefficient block and quantization table (including garbage), the integer inverse DCT indexes the range-limit table within bounds and writes only samples 0..MAXJSAMPLE; a DC-only block gives a constant block, and the all-AC-zero column shortcut gives exactly the result of the full computation.", "quantifier": "all coefficient blocks, all quantization tables", "why_tests_cant": "65536^64 blocks.", "anchors": ["jidctint.c:jpeg_idct_islow", "jddctmgr.c", "jdmaster.c:prepare_range_limit_table"]}
{"id": "C33", "title": "Memory pools never hand out overlapping or short blocks", "statement": "For every sequence of small/large allocations and pool releases, live objects are aligned, pairwise disjoint and at least the requested size; freeing a pool frees every block exactly once; oversize requests are rejected.", "quantifier": "all allocation/free sequences and sizes", "why_tests_cant": "Unbounded histories.", "anchors": ["jmemmgr.c:alloc_small", "jmemmgr.c:alloc_large", "jmemmgr.c:free_pool", "jmemmgr.c:self_destruct"]}
{"id": "C34", "title": "Trellis quantization only ever shrinks coefficients and keeps signs", "statement": "Each AC coefficient chosen by trellis quantization is zero or has the sign of, and magnitude at most, the ordinarily rounded quantized value, and the chosen path has minimal rate-distortion cost among all candidate paths considered.", "quantifier": "all DCT blocks, quantization tables, code-length tables, lambda weights", "why_tests_cant": "All blocks and cost tables; optimality quantifies over all paths.", "anchors": ["jcdctmgr.c:quantize_trellis"]}
{"id": "C35", "title": "Extension parameters read back what was set", "statement": "jpeg_c_set_*_param followed by jpeg_c_get_*_param of the same parameter returns the value set (for values the setter accepts), setting one parameter leaves all others unchanged, and unsupported parameters raise an error.", "quantifier": "all parameters, all values, all histories of sets", "why_tests_cant": "All histories.", "anchors": ["jcext.c:jpeg_c_set_bool_param", "jcext.c:jpeg_c_get_bool_param", "jcext.c:jpeg_c_set_int_param", "jcext.c:jpeg_c_set_float_param"]}
{"id": "C36", "title": "Lossless transforms handle partial edge iMCUs safely", "statement": "For an image of any size and any sampling factors, every lossless transform (with or without trim) reads and writes only inside the allocated coefficient arrays, never fails, ignores the old workspace contents, and moves exactly the whole-iMCU region to its mirrored place while the partial edge blocks stay on their own edge (transposed but not mirrored).", "quantifier": "all images (any dimensions, components, sampling factors, coefficients), all 8 transforms, trim on or off", "why_tests_cant": "depends on every combination of dimension remainders, sampling factors and transforms; out-of-bounds accesses may be silent", "anchors": ["transupp.c:do_flip_h", "transupp.c:do_rot_90", "transupp.c:do_transverse", "transupp.c:jtransform_request_workspace", "transupp.c:trim_right_edge"]}
{"id": "C37", "title": "One-pass compression, two-pass compression and transcoding put the same blocks in the stream, and coefficient arrays survive a whole sequential scan", "statement": "For every image size, sampling factors, and scan, the one-pass compressor, the full-buffer compressor and jpeg_write_coefficients hand the same sequence of MCUs (including made-up edge blocks) to the entropy coder for the same quantized blocks; writing coefficient arrays in range with jpeg_write_coefficients and reading them back with jpeg_read_coefficients returns every block of every component, and the single-pass decompressor transforms exactly the blocks that lie in the image, each at its position.", "quantifier": "all image dimensions, component counts, sampling factors, scans, restart intervals, usable Huffman tables and coefficient contents", "why_tests_cant": "Edge behaviour depends on the residues of width and height modulo every combination of sampling factors, and on coefficient contents; the combinations are unbounded.", "anchors": ["jccoefct.c:compress_data", "jccoefct.c:compress_first_pass", "jccoefct.c:compress_output", "jctrans.c:compress_output", "jdcoefct.c:consume_data", "jdcoefct.c:decompress_onepass", "jcmaster.c:per_scan_setup", "jdinput.c:per_scan_setup"]}
{"id": "C38", "title": "Optimized Huffman tables are optimal", "statement": "If no length limiting is needed (guaranteed when every used symbol occurs at least m times and there are fewer than 2583+1597m occurrences), no acceptable Huffman table that codes all used symbols makes the coded symbols smaller than the generated table does by more than 15 bits in total.", "quantifier": "all frequency tables and all competing tables", "why_tests_cant": "The competing tables and the frequency tables are both unbounded families.", "anchors": ["jchuff.c:jpeg_gen_optimal_table"]}
{"id": "C39", "title": "Two-pass (optimize_coding) compression always completes and round-trips", "statement": "With optimize_coding, for any coefficients in range and any restart interval (fewer than 9227464 symbols per table), the statistics pass succeeds, the generated tables give every symbol of the second pass a code, and decoding the result returns exactly the coefficients.", "quantifier": "all coefficient arrays in range, MCU layouts, restart intervals", "why_tests_cant": "The generated tables depend on all of the data; a missing code for one rare symbol would only show on particular images.", "anchors": ["jchuff.c:encode_mcu_gather", "jchuff.c:finish_pass_gather", "jchuff.c:jpeg_gen_optimal_table", "jchuff.c:encode_mcu_huff", "jdhuff.c:decode_mcu_slow"]}
{"id": "C40", "title": "DC trellis quantization picks the cheapest DC sequence", "statement": "With trellis_quant_dc on, the DC coefficients written for a row of blocks are, among all sequences of values within the candidate window around the rounded values, ones minimizing weighted squared error plus Huffman bits of the DC differences (exact arithmetic).", "quantifier": "all rows of blocks, predictors, code-length tables, error weights, candidate sequences", "why_tests_cant": "The number of candidate sequences is exponential in the row length and rows are unbounded.", "anchors": ["jcdctmgr.c:quantize_trellis", "jcdctmgr.c:get_num_dc_trellis_candidates"]}
{"id": "C41", "title": "Saved application markers come back as written", "statement": "Markers written with jpeg_write_marker (APPn or COM, any data that fits a segment) are accepted by the decompressor; those whose code was requested with jpeg_save_markers are found in marker_list in order, with the original length and the data up to the requested limit, and the others leave no trace in the decoder (except JFIF/Adobe data of APP0/APP14).", "quantifier": "all sequences of markers, codes, data contents and lengths, all settings of jpeg_save_markers, all reader states between markers", "why_tests_cant": "codes, lengths, limits and orders combine without bound; tests use one or two fixed markers", "anchors": ["jcapimin.c: jpeg_write_marker", "jcmarker.c: write_marker_header, write_marker_byte", "jdmarker.c: save_marker, skip_variable, get_interesting_appn, jpeg_save_markers"]}
{"id": "C42", "title": "Virtual arrays behave like arrays held entirely in memory", "statement": "For every history of accesses to a virtual sample or coefficient array (forward, backward, overlapping, reading or writing, also continuing after rejected accesses), and whatever the in-memory window and allocation chunk sizes, an access is rejected exactly when it leaves the array, asks for too many rows, skips rows when writing or reads undefined rows; otherwise it shows in every row what was last stored there, or zeros in rows never opened for writing of a pre-zeroed array. Without a memory limit no backing store is ever requested.", "quantifier": "all access histories, window sizes, chunk sizes, initial memory contents", "why_tests_cant": "Unbounded histories and window positions; the default build never exercises the window at all.", "anchors": ["jmemmgr.c:access_virt_sarray", "jmemmgr.c:access_virt_barray", "jmemmgr.c:do_barray_io", "jmemmgr.c:realize_virt_arrays", "jmemnobs.c:jpeg_mem_available"]}
{"id": "C45", "title": "Scanlines reach the coefficient controller independently of how they are passed", "statement": "However an application splits the image over jpeg_write_scanlines calls (any number of lines per call, including zero or too many) and whenever the destination suspends, the coefficient controller is offered iMCU rows 0,1,2,... in order, each holding exactly the downsampled rows determined by the image alone (bottom rows replicated, context rows above and below clamped to the image); a suspended row is offered again unchanged; no row outside the conversion buffer's row-pointer array is touched; without suspension a call accepts all lines offered up to the height; and when next_scanline reaches image_height all iMCU rows have been accepted.", "quantifier": "all image heights 1..2^32-1, sampling factors, data unit sizes, downsamplers (with or without context rows), all sequences of calls and all patterns of suspension", "why_tests_cant": "The set of call splittings and suspension patterns is unbounded; a wrong wraparound pointer or counter shows only for particular alignments of call boundaries with row groups.", "anchors": ["jcapistd.c:jpeg_write_scanlines", "jcmainct.c:process_data_simple_main", "jcprepct.c:pre_process_data", "jcprepct.c:pre_process_context", "jcprepct.c:create_context_buffer", "jcprepct.c:expand_bottom_edge"]}
{"id": "C44", "title": "Scanlines are delivered in order, once each, however they are read", "statement": "For every sequence of jpeg_read_scanlines calls (any buffer sizes including zero, suspension by the data source at any iMCU row) the application receives exactly scanlines 0..output_scanline-1 of the image, in order, each once. A scanline is determined by the delivered component rows alone: row t mod max_v of the upsampled row group t div max_v, where a method that needs context sees the neighbouring rows of the component, the first and last real row standing in for rows outside; previous contents of the workspace, call sizes and suspensions have no influence, and with context rows no dummy row of the last iMCU row reaches the output. A call never returns more lines than the buffer holds, returns at least one when the source does not suspend and the image is unfinished, and none after the end; no unset row pointer or row outside the workspace is used, and no iMCU row past the last one is requested.", "quantifier": "all image heights, sampling factors, scaled DCT sizes, component counts and upsampling functions; all call sequences and suspension patterns; all previous memory contents", "why_tests_cant": "The rotating row-pointer lists are correct only through an invariant over unbounded histories; a wrong pointer shows only for particular alignments of iMCU rows, call sizes and image heights.", "anchors": ["jdapistd.c:jpeg_read_scanlines", "jdmainct.c:process_data_context_main", "jdmainct.c:process_data_simple_main", "jdmainct.c:make_funny_pointers", "jdmainct.h:set_wraparound_pointers", "jdmainct.c:set_bottom_pointers", "jdsample.c:sep_upsample", "jdsample.c:fullsize_upsample"]}
{"id": "C47", "title": "The accurate inverse DCT is accurate", "statement": "With the default (islow) method at full size, the samples decoded from a block equal the exact real-number inverse DCT of its dequantized coefficients, re-centred and limited to 0..MAXJSAMPLE, up to an error below one sample unit: at most 0.86 for 8-bit samples whenever the dequantized coefficients have absolute sum at most 8192 and the exact values stay within +-510, and in general at most 1/2 + 3.75/2^(PASS1_BITS+3) + (absolute sum)/35000.", "quantifier": "all coefficient blocks and multiplier tables with bounded absolute sum, all 64 sample positions", "why_tests_cant": "Accuracy tests sample random blocks; worst-case error over all blocks needs analysis.", "anchors": ["jidctint.c:jpeg_idct_islow", "jdct.h:DESCALE"]}
{"id": "C48", "title": "The fast Huffman decoding path is only an optimisation", "statement": "decode_mcu takes its fast path when the buffer holds at least 512 bytes per block and there are no restarts. It then never reads outside the buffer, whatever the bytes, and yields the same coefficients, DC predictions and position in the bit stream as the slow path, also when it meets a marker half way and has to start over. Exception: if the data contains FF FF 00, the block keeps stale coefficients.", "quantifier": "all source bytes, all accepted tables, all states of the bit buffer, all MCU layouts", "why_tests_cant": "The 512-byte margin must suffice for the worst case of every table and every bit pattern, and the marker can be met at any bit.", "anchors": ["jdhuff.c:decode_mcu_fast", "jdhuff.c:decode_mcu", "jdhuff.c:GET_BYTE", "jdhuff.h:FILL_BIT_BUFFER_FAST"]}
{"id": "C49", "title": "Arithmetic-coded files reproduce the coefficients", "statement": "For every image whose coefficients are in range for its data precision and every scan script the library accepts, sequential or progressive, with arithmetic coding (arith_code), any restart intervals, conditioning tables and statistics tables: decoding the scans gives back exactly the coefficients (sequential, and progressive scripts that send everything), or exactly the bits the script sent; there is no warning and after each scan the decoder is at the marker that follows.", "quantifier": "all images, geometries, accepted scan scripts, restart intervals, conditioning values, statistics table assignments, all three coefficient controllers", "why_tests_cant": "The binarization of every coefficient value in every context must be inverted by the decoder, with adaptive state kept in step over arbitrarily many decisions.", "anchors": ["jcarith.c:encode_mcu", "jcarith.c:encode_mcu_DC_first", "jcarith.c:encode_mcu_AC_first", "jcarith.c:encode_mcu_DC_refine", "jcarith.c:encode_mcu_AC_refine", "jdarith.c:decode_mcu", "jdarith.c:decode_mcu_AC_refine", "jdarith.c:process_restart"]}
{"id": "C50", "title": "Arithmetic decoding of arbitrary data is safe and completes", "statement": "Whatever bytes a file with arithmetic coding contains (an end-of-image marker follows, as the library's data sources guarantee), decoding a scan whose parameters passed the checks runs through all its MCUs: no decision reads outside the statistics areas or the probability state table or overflows the code register, wrong or missing restart markers included; every coefficient stored is a 16-bit value; only the scan's blocks change and in them only coefficients of the scan's spectral band.", "quantifier": "all byte strings, all sequential and progressive scan kinds that pass start_pass, all MCU layouts, restart intervals, conditioning values, previous coefficient contents", "why_tests_cant": "Safety on hostile input ranges over all byte strings and the adaptive state reached by any prefix.", "anchors": ["jdarith.c:arith_decode", "jdarith.c:decode_mcu", "jdarith.c:decode_mcu_DC_first", "jdarith.c:decode_mcu_AC_first", "jdarith.c:decode_mcu_DC_refine", "jdarith.c:decode_mcu_AC_refine", "jdarith.c:process_restart", "jdarith.c:start_pass"]}
{"id": "C46", "title": "jpeg_skip_scanlines skips", "statement": "In any sequence of jpeg_read_scanlines calls (room for at least one line each) and jpeg_skip_scanlines calls, every line delivered is the line of the image whose number output_scanline had, exactly as if all lines had been read; jpeg_skip_scanlines returns the number of lines asked for, or those left in the image if fewer, advances output_scanline by it and delivers nothing; output_scanline never passes output_height.", "quantifier": "all image heights, sampling factors, scalings, upsampling methods, all histories of read and skip calls of any sizes, with reads suspending anywhere; excluded are call situations (listed and shown by counterexample) in which the code fails", "why_tests_cant": "The effect of a skip depends on the position within the iMCU row, on what has been decoded ahead and on the history of earlier skips; the combinations are unbounded.", "anchors": ["jdapistd.c:_jpeg_skip_scanlines", "jdapistd.c:read_and_discard_scanlines", "jdapistd.c:increment_simple_rowgroup_ctr", "jdmainct.h:set_wraparound_pointers", "jdmainct.c:process_data_context_main", "jdmainct.c:process_data_simple_main"]}
{"id": "C43", "title": "Merged upsampling equals separate upsampling and conversion", "statement": "When chroma is 2:1 subsampled and fancy upsampling is off, the decompressor upsamples and converts in one pass: the pixels of every line delivered are those that replicating chroma samples and then converting each pixel gives (luma line t with chroma line t or t/2), in every RGB pixel format, 8 and 12 bits; RGB565 output is the 16-bit value with 5/6/5 bits of the converted colour, low byte first on any machine, with ordered dithering positioned by line and column. Whatever numbers of lines the application asks for, and with skips between, lines come in order, none is lost or repeated, rows beyond those returned are untouched and output_scanline does not pass output_height.", "quantifier": "all widths, heights, sample values, pixel formats, both byte orders, all histories of read and skip calls of any sizes with reads suspending anywhere; excluded call situations are listed and shown by counterexample", "why_tests_cant": "Whether a line comes from the spare row, and how the two lines of a row group are split between calls, depends on the whole history of calls; and pixel equality must hold for every sample triple, width parity and dither phase.", "anchors": ["jdmerge.c:merged_2v_upsample", "jdmerge.c:merged_1v_upsample", "jdmerge.c:build_ycc_rgb_table", "jdmrgext.c:h2v1_merged_upsample_internal", "jdmrgext.c:h2v2_merged_upsample_internal", "jdmrg565.c:h2v2_merged_upsample_565D_internal", "jdcol565.c:ycc_rgb565_convert_internal", "jdapistd.c:read_and_discard_scanlines", "jdapistd.c:increment_simple_rowgroup_ctr"]}
{"id": "C51", "title": "Overshoot deringing changes nothing that is displayed", "statement": "With overshoot deringing on (the default of the compressor), for every 8-bit block of samples and every quantization table the samples given to the DCT are the original ones except that samples at the maximum (255) may be raised, by at most 31 and at most twice the DC quantizer, so that a decoder which clamps shows exactly the original block; blocks without white samples and all-white blocks are not changed; the block's sum (its DC coefficient) is not lowered and never exceeds that of an all-white block; no access is made outside the block and no float is converted that does not fit the DCT element type.", "quantifier": "all 8-bit blocks, all DC quantizer values, every single-precision arithmetic with IEEE error bounds (any rounding direction within them, fused or not)", "why_tests_cant": "The runs, slopes and room depend on the whole 64-sample block in zigzag order and on float rounding; there are 256^64 blocks.", "anchors": ["jcdctmgr.c:preprocess_deringing", "jcdctmgr.c:catmull_rom", "jcdctmgr.c:jinit_forward_dct"]}
{"id": "C52", "title": "Forward DCT: accurate, no overflow, coefficients the encoder accepts", "statement": "The accurate integer forward DCT gives, for every block of samples, each coefficient within 0.35 (8-bit) or 2.4 (12-bit) of the exact DCT, with no overflow of its integer types (8-bit: even with 16-bit DCT elements and 32-bit long; 12-bit: with 64-bit long). After quantization by any table with quantizers 1..8191, with or without deringing, every AC coefficient of an 8-bit image fits 10 bits and every DC coefficient lies in -1024..1023, so the entropy encoder never rejects a coefficient of an image the compressor made itself.", "quantifier": "all blocks of 8-bit or 12-bit samples, all quantization tables with entries 1..8191, deringing on or off with any IEEE float rounding", "why_tests_cant": "There are 256^64 blocks; worst-case rounding errors and the extreme coefficients occur only at adversarial sample patterns.", "anchors": ["jfdctint.c:_jpeg_fdct_islow", "jcdctmgr.c:forward_DCT", "jcdctmgr.c:quantize", "jcdctmgr.c:start_pass_fdctmgr", "jchuff.c:encode_one_block"]}
{"id": "C53", "title": "Compressing and decompressing a block returns the samples within a bound given by the quantization table", "statement": "For every block of 8-bit samples, compressing (level shift, optional deringing, accurate integer DCT, quantization) and decompressing (dequantization, accurate integer IDCT, clamping) returns each sample within E of the original, where E is half a quantization step per coefficient weighted with the DCT basis at that pixel plus a constant for arithmetic, as long as E is below 353; with every quantizer at most Q this is at most 4Q+4, and at quality 100 at most 8 (10 with deringing).", "quantifier": "all blocks of 8-bit samples, all quantization tables whose bound is below 353, deringing on or off with any IEEE float rounding", "why_tests_cant": "The worst case is over 256^64 blocks for each of the tables; rounding of three stages interacts.", "anchors": ["jcdctmgr.c:forward_DCT", "jcdctmgr.c:convsamp", "jcdctmgr.c:quantize", "jfdctint.c:_jpeg_fdct_islow", "jidctint.c:_jpeg_idct_islow", "jdmaster.c:prepare_range_limit_table"]}
{"id": "C54", "title": "Progressive Huffman scans decode safely from any bytes, and the same however the data arrives", "statement": "Decoding a progressive Huffman scan whose parameters and tables the decoder has accepted never reads or writes outside its tables, its position list or the blocks of the scan, whatever the compressed bytes; coefficients stay 16-bit numbers and scan positions below the band are never changed. If the data source suspends (the data arrives in pieces of any sizes, the application calls again after each) the coefficients, restart state, warnings for premature markers and unread data at the end are those of decoding with all the data in the buffer; while waiting, only the MCU being decoded can differ; once all the data up to an EOI marker has arrived no call suspends.", "quantifier": "all byte strings with an EOI marker (for safety: all byte strings), all ways to cut them into pieces, all accepted scan parameters, tables, layouts, restart intervals, and prior coefficient values", "why_tests_cant": "A refinement scan updates coefficients in place and must undo or be able to repeat its changes whichever bit the data stops at; suspension points and corrupt streams cannot be enumerated.", "anchors": ["jdphuff.c:decode_mcu_DC_first", "jdphuff.c:decode_mcu_AC_first", "jdphuff.c:decode_mcu_DC_refine", "jdphuff.c:decode_mcu_AC_refine", "jdphuff.c:process_restart", "jdcoefct.c:consume_data", "jdmarker.c:read_restart_marker"]}
{"id": "C55", "title": "One-pass colour quantization: fair palette, valid indices, bounded error in every dither mode", "statement": "Colour quantization with the one-pass quantizer starts exactly when the image is not lossless, has at most four components and the number of colours asked for is at least two per component and at most one more than the largest sample. The palette then has at most that many colours, is the row-major product of equally spaced levels per component (0 and the maximum included), the levels are shared fairly (every component has at least the integer root, the first one tried cannot get another), and no colour occurs twice. In any later pass, with any sequence of dither modes and rows given in any batches, no access is outside an array, one row comes out per row in, every output sample is an index into the palette, and each component of its colour is the level the documented rule gives: rounding of the sample, of the sample plus its dither matrix offset, or of the sample plus the Floyd-Steinberg diffused error in serpentine order. The rounding is at most one worse than nearest; dithered colours differ from the sample by at most one level step plus 1 (ordered) or 2 (F-S), however large the image.", "quantifier": "all component counts, sample precisions, colour counts, image widths, all row contents, all splits of rows over calls, all histories of passes and dither modes", "why_tests_cant": "Palette layouts, error-diffusion states and call splits are unbounded; error build-up over large images and off-by-one table accesses at the padded ends need a proof.", "anchors": ["jquant1.c:select_ncolors", "jquant1.c:create_colormap", "jquant1.c:create_colorindex", "jquant1.c:create_odither_tables", "jquant1.c:color_quantize", "jquant1.c:color_quantize3", "jquant1.c:quantize_ord_dither", "jquant1.c:quantize3_ord_dither", "jquant1.c:quantize_fs_dither", "jquant1.c:start_pass_1_quant", "jquant1.c:jinit_1pass_quantizer"]}
{"id": "C56", "title": "A whole JPEG file carries its coefficient arrays, tables and markers without loss", "statement": "Take any coefficient arrays (8- or 12-bit range, 1 to 4 components, any dimensions and sampling factors the compressor accepts), quantization tables, and any way of coding them: a sequential or progressive scan script accepted by the compressor, Huffman coding with tables covering every symbol or with optimized tables, or arithmetic coding with any conditioning, any restart interval in MCUs or rows, optional JFIF and Adobe markers and application markers. The compressor writes a complete file without error. Reading that file, followed by arbitrary bytes, with jpeg_read_header and jpeg_read_coefficients - marker reader and entropy decoder handing the input over to each other at every scan - ends at the EOI marker with the input positioned exactly after it, no warning of the entropy decoder, the same dimensions, precision, component identifiers, sampling factors and table numbers, for each component the quantization table it was given, the JFIF/Adobe data and the requested markers, and each block of each component equal to the one written (for a progressive script that does not send everything: equal in exactly the bits sent). Hence any chain of such transcodings preserves the coefficients.", "quantifier": "all images, dimensions, sampling factors, tables, legal scan scripts, entropy coders, restart intervals, marker lists, trailing bytes and marker-saving settings", "why_tests_cant": "Files are unbounded, and the product of scripts, coders, tables, restart intervals and image sizes is infinite; errors at the seams (a marker taken for data, a table considered already sent, a scan ended one byte early) appear only for particular combinations.", "anchors": ["jcmaster.c:select_scan_parameters", "jcmaster.c:prepare_for_pass", "jcmaster.c:jinit_c_master_control", "jctrans.c:jpeg_write_coefficients", "jcmarker.c:write_scan_header", "jchuff.c:finish_pass_gather", "jcphuff.c:finish_pass_gather_phuff", "jdapimin.c:jpeg_consume_input", "jdtrans.c:jpeg_read_coefficients", "jdinput.c:consume_markers", "jdinput.c:latch_quant_tables", "jdmarker.c:read_markers", "jdhuff.c:start_pass_huff_decoder", "jdphuff.c:start_pass_phuff_decoder", "jdarith.c:start_pass"]}
{"id": "C57", "title": "Two-pass colour quantization: median-cut palette, nearest colours, bounded diffusion", "statement": "Two-pass quantization is accepted exactly for three-component output that is not RGB565 or lossless, and for 8 to MAXJSAMPLE+1 wanted colours (1 to MAXJSAMPLE+1 for a palette of the application). Whatever passes, dither modes and palettes came before: a prescan of any image reads and writes inside its arrays and ends with the palette of the median cut of the image's colour cells (5-6-5 leading bits) - repeatedly the most populated, later the longest box is cut at the middle of its longest weighted axis and shrunk - each entry the rounded mean, weighted by pixel counts, of its box. The palette has min(wanted, number of cells in the image) entries, all different, each inside its box, and each cell of the image is in exactly one box. An output pass without dithering gives every pixel the first palette entry nearest (weights 2, 3, 1 for red, green, blue) to the centre of the pixel's cell; any other dither mode gives serpentine Floyd-Steinberg diffusion with limited errors, in which the colour looked up never differs from the pixel by more than an eighth of the range. Results do not depend on how rows are split into calls or on what the cache or memory held before. If the image has no more cells than wanted colours, every pixel is shown as the centre of its cell, off by at most half a cell.", "quantifier": "all images, widths, splits of rows into calls, wanted colour numbers, palettes, dither modes, RGB component orders, and histories of prescans, output passes and palette changes", "why_tests_cant": "The inverse colour map is filled lazily in blocks and pruned by geometric bounds: whether some entry is wrongly dropped, or the cache is stale after a palette change, depends on palette, pixel order and history; median cut depends on the whole image.", "anchors": ["jquant2.c:prescan_quantize", "jquant2.c:update_box", "jquant2.c:median_cut", "jquant2.c:compute_color", "jquant2.c:select_colors", "jquant2.c:find_nearby_colors", "jquant2.c:find_best_colors", "jquant2.c:fill_inverse_cmap", "jquant2.c:pass2_no_dither", "jquant2.c:pass2_fs_dither", "jquant2.c:init_error_limit", "jquant2.c:start_pass_2_quant", "jquant2.c:new_color_map_2_quant", "jdmaster.c:jpeg_new_colormap"]}
{"id": "C58", "title": "Block smoothing of progressive files: when, what, and never against received data", "statement": "An output pass of a progressive file uses smoothing exactly if every component has a quantization table without zeros at the first ten zigzag positions and at least some bits of its DC coefficients, and at least one of the first nine AC coefficients of some component is not known exactly; once everything has been received, output is that without smoothing. After any sequence of accepted scans a smoothing pass reads inside its arrays, never divides by zero or overflows, uses no uninitialised status, and gives the inverse DCT the decoded blocks in which the unknown zero coefficients among AC01, AC10, AC20, AC11, AC02 (and, if no AC data is known at all, also AC03, AC12, AC21, AC30 and the DC coefficient) are replaced by fixed weighted sums of the 25 neighbouring DC values, rescaled by the quantization values and rounded to nearest. A coefficient that is nonzero or known exactly is never changed; one of which the bits from Al up are known to be zero stays below 2^Al in magnitude; flat areas are not changed at all. The weights treat rows and columns alike and turn with mirror images.", "quantifier": "all sequences of scans accepted by the decoder, all images sizes, sampling factors, output regions, coefficient values and tables, all rows and the row where input broke off", "why_tests_cant": "Edge handling depends on the number of block rows in the last iMCU rows, the region and the state of each component; estimates depend on 25 neighbours and on the history of scans.", "anchors": ["jdcoefct.c:smoothing_ok", "jdcoefct.c:decompress_smooth_data", "jdcoefct.c:start_output_pass", "jdphuff.c:start_pass_phuff_decoder", "jdphuff.c:jinit_phuff_decoder", "jdarith.c:start_pass"]}
{"id": "C59", "title": "Cropping, crop extension, wiping and dropping of coefficient images", "statement": "jtransform_parse_crop_spec accepts exactly the strings <width>[fr]x<height>[fr]{+-}<x>{+-}<y> with parts omitted (no y without x), numbers counting modulo 2^32. A request no larger than the (transformed) image is accepted exactly when it selects a nonempty rectangle inside it - negative offsets measured from the far edge, a missing size meaning as far as possible - and the output is that rectangle moved left and up to an iMCU corner, still ending where it ended unless the size is forced. For every image, every transform, trimming or not, in place or not, the routines stay inside their arrays and each block of the result is the block of the uncropped transformed image at the corresponding place. A larger request without transform (crop extension) gives the whole iMCUs of the image at the requested place rounded to an iMCU corner, surrounded by zero blocks, or left and right by blocks with the DC value of the nearest block (f), or by repeated reflection (r). A wipe changes exactly the fewest iMCUs that cover the request, to zero, to the flat value of the neighbours (f), or to the reflection of the rest (r, full-height strips at an edge); a drop of an image divided in the same way changes exactly the iMCUs inside the request (partial iMCUs at the image's edge included) to those of the drop image. All other blocks are as before.", "quantifier": "all crop strings, image sizes, component layouts, transforms, trim and in-place settings, requests, coefficient values, drop images", "why_tests_cant": "Geometry depends on divisibility of five sizes per axis and per component; errors show only for particular combinations of offset, size, sampling factors and edges.", "anchors": ["transupp.c:jtransform_parse_crop_spec", "transupp.c:jt_read_integer", "transupp.c:jtransform_request_workspace", "transupp.c:jtransform_execute_transform", "transupp.c:do_crop", "transupp.c:do_crop_ext_zero", "transupp.c:do_crop_ext_flat", "transupp.c:do_crop_ext_reflect", "transupp.c:do_wipe", "transupp.c:do_flatten", "transupp.c:do_reflect", "transupp.c:do_drop", "jpegtran.c:main"]}
{"id": "C60", "title": "Dropping an image with other quantization tables", "statement": "When the drop image's quantization tables differ from the image's, jtransform_adjust_parameters rewrites coefficients before the drop. Without trim both images are rewritten to the greatest common divisors of their steps, which the destination's tables receive, and every coefficient times its step is exactly what it was, in the dropped rectangle for the drop image and elsewhere for the image; with trim the destination's tables and the image stay and each drop coefficient is rounded to the nearest multiple of the image's step. This holds when all steps are 1..32767, coefficient times step fits 16 bits, and components sharing a table slot have the same divisors; the rewriting stays inside the arrays.", "quantifier": "all component counts, table slots, quantization tables, coefficient values, image sizes and drop positions", "why_tests_cant": "Exactness depends on divisibility of 64 pairs of 16-bit steps per component, on 16-bit overflow and on how components share table slots.", "anchors": ["transupp.c:adjust_quant", "transupp.c:dequant_comp", "transupp.c:requant_comp", "transupp.c:largest_common_denominator", "transupp.c:do_drop"]}
{"id": "C61", "title": "Reading and writing PPM and PGM files", "statement": "cjpeg's reader takes any sequence of bytes without access outside its buffers; what it accepts has 1 to 65535 rows and columns, no more pixels than the limit, and complete rows of samples in range. A well-formed text or raw file (P2, P3, P5, P6) with any maximum from 1 to 65535, with any whitespace and comments between numbers, is accepted, and each pixel has the file's colour, each sample scaled to the nearest value of the sample range (0 to 0, maximum to maximum, in order), in the gray, RGB-layout (alpha at maximum) or CMYK format asked for. A raw file with too few bytes is rejected. Writing gray or RGB samples with djpeg's writer and reading them back gives the same samples, and reading a file with the full maximum into any layout, CMYK included, and writing it gives the same bytes; conversion of RGB to CMYK is undone by the conversion back even if C, M and Y are rounded either way at ties.", "quantifier": "all byte sequences, image sizes, maxima, pixel layouts, sample values and precisions (8, 12, 16 bits), layouts of whitespace and comments", "why_tests_cant": "Input files are attacker-controlled; scaling tables, layouts, text and raw variants multiply, and reversibility of the CMYK conversion concerns 2^24 to 2^48 colours.", "anchors": ["rdppm.c:start_input_ppm", "rdppm.c:read_pbm_integer", "rdppm.c:pbm_getc", "rdppm.c:get_text_gray_row", "rdppm.c:get_rgb_row", "rdppm.c:get_word_rgb_row", "rdppm.c:get_raw_row", "wrppm.c:start_output_ppm", "wrppm.c:put_rgb", "wrppm.c:put_cmyk", "wrppm.c:copy_pixel_rows", "cmyk.h:rgb_to_cmyk", "cmyk.h:cmyk_to_rgb"]}
{"id": "C62", "title": "Reading GIF files", "statement": "cjpeg's GIF reader takes any sequence of bytes without access outside its buffers, LZW tables, LZW stack or the virtual array, without looking up a colour that was never set, and in finite time. What it accepts has 1 to 65535 rows and columns, no more pixels than the limit, and complete rows of samples in range, one per pixel if the colour maps are gray and three otherwise. Row i of the decoded data is row i of the image, or, if the file says it is interlaced, the i-th row in the order of GIF: rows 0, 8, 16, ..., then 4, 12, ..., then 2, 6, 10, ..., then 1, 3, 5, ...", "quantifier": "all byte sequences, pixel limits, sample precisions and initial contents of memory", "why_tests_cant": "Input files are attacker-controlled, the LZW tables are a graph built by the file, and the reader was the place of several CVEs; tests and fuzzing see finitely many of them.", "anchors": ["rdgif.c:start_input_gif", "rdgif.c:GetCode", "rdgif.c:LZWReadByte", "rdgif.c:ReInitLZW", "rdgif.c:ReadColorMap", "rdgif.c:load_interlaced_image", "rdgif.c:get_interlaced_row", "rdgif.c:get_pixel_rows"]}
{"id": "C63", "title": "The LZW decoder of GIF files", "statement": "If the header of a GIF file is accepted and its data sub-blocks, put together, hold LZW codes that stand for at least width * height pixels, then the file is accepted and its pixels are exactly the text of these codes: codes are cut lowest bit first from the bytes, however these are split into sub-blocks; codes below Clear are colours; each code but the first after Clear (or at the start) defines the string of the text before it and its own first colour, also if it is that code itself; the width grows from the initial one to 12 bits with the number of codes defined, of which there are at most 4096; Clear forgets the strings. Colour c of the text is entry c of the colour map, and rows go where C62 says.", "quantifier": "all files, image sizes, initial code sizes 2 to 8, code sequences of any length, and splits into sub-blocks", "why_tests_cant": "The state is a table of up to 4096 strings that depends on all codes since the last Clear, and a bit buffer whose state depends on how blocks fall; errors show only at certain code widths, block boundaries, and for codes that define themselves.", "anchors": ["rdgif.c:GetCode", "rdgif.c:GetDataBlock", "rdgif.c:LZWReadByte", "rdgif.c:ReInitLZW", "rdgif.c:InitLZWCode", "rdgif.c:get_pixel_rows", "rdgif.c:get_interlaced_row"]}
{"id": "C64", "title": "The compressor of the GIF writer", "statement": "For every initial code size and every sequence of pixels below Clear, whatever the hash table's memory held before, djpeg's GIF writer produces data whose bytes are valid sub-blocks, in finite time (the search in the hash table always ends) and without access outside the hash table, with and without compression; and this data holds LZW codes, in the sense of C63, whose text is exactly the pixels: decoding gives back the image, for any length, also when the table of 4096 codes fills up and is cleared.", "quantifier": "all pixel sequences, code sizes 2 to 8, initial memory contents, both modes", "why_tests_cant": "Errors of LZW compressors show at code width changes, when the table fills, or for hash collisions; termination of open addressing needs that the table size is prime and that it is never full.", "anchors": ["wrgif.c:put_LZW_pixel_rows", "wrgif.c:put_raw_pixel_rows", "wrgif.c:output", "wrgif.c:compress_init", "wrgif.c:compress_term", "wrgif.c:clear_block", "wrgif.c:flush_packet"]}
{"id": "C65", "title": "GIF files of djpeg read by cjpeg", "statement": "Every image of at most 256 colours (RGB or gray colour map, or gray samples without a colour map), with 1 to 65535 columns and rows, is written by djpeg as a file of bytes, compressed or not, whatever memory held before; cjpeg's GIF reader accepts it under any limit on pixels that the image meets and gives back its size and, row by row, the 8-bit colours of the pixels, as one gray sample per pixel exactly if every colour of the colour map is gray. More than 256 colours are refused.", "quantifier": "all images, colour maps, precisions, both modes, memory contents of both programs", "why_tests_cant": "Each number of colours has its own map size and code size, each pixel sequence its own dictionary; tests use a handful of images.", "anchors": ["wrgif.c:emit_header", "wrgif.c:start_output_gif", "wrgif.c:put_LZW_pixel_rows", "wrgif.c:put_raw_pixel_rows", "wrgif.c:finish_output_gif", "rdgif.c:start_input_gif", "rdgif.c:ReadColorMap", "rdgif.c:get_pixel_rows"]}
{"id": "C66", "title": "Targa files", "statement": "Any sequence of bytes, taken as a Targa file, is read by cjpeg without undefined behaviour; an accepted image has 1 to 65535 columns and rows, meets the limit on pixels, and its rows are complete. A file with any supported header (types 1, 2, 3 and their run-length coded forms, 8, 16, 24 or 32 bits per pixel, either row order, any ID field, any colour map of at most 256 entries) and data for enough pixels is accepted, and the rows are those of the image from top to bottom, 5-bit samples scaled to 8 bits with rounding; run-length packets may cross rows. What djpeg writes (full colour, colour map, gray, or gray with a map) is read back exactly.", "quantifier": "all byte sequences; all headers, colour maps, pixel and packet sequences; all images", "why_tests_cant": "The space of packets crossing rows and of headers is unbounded; the tests use one Targa file.", "anchors": ["rdtarga.c:start_input_tga", "rdtarga.c:read_rle_pixel", "rdtarga.c:get_8bit_row", "rdtarga.c:get_16bit_row", "rdtarga.c:get_24bit_row", "rdtarga.c:get_memory_row", "rdtarga.c:read_colormap", "wrtarga.c:write_header", "wrtarga.c:start_output_tga", "wrtarga.c:put_pixel_rows", "wrtarga.c:put_demapped_gray"]}
{"id": "C67", "title": "Colour-map files", "statement": "Any sequence of bytes, taken by djpeg -map as a colour-map file, is read without undefined behaviour; an accepted map has between 1 and 2^bits colours (256 for 8-bit samples), all in range. For a GIF file with a global colour map the result is the different colours of that map, in the order in which they first occur, scaled to the sample size; for a PPM file, text or raw, with the maximum of the sample size it is the different colours of its pixels, in the same order, or an error if there are more than 2^bits. A file that ends before its last colour, and any other kind of file, is refused.", "quantifier": "all byte sequences; all GIF colour maps and PPM images; sample sizes of 8 to 16 bits", "why_tests_cant": "Files are unbounded, and the tests use one map file.", "anchors": ["rdcolmap.c:add_map_entry", "rdcolmap.c:read_gif_map", "rdcolmap.c:read_pbm_integer", "rdcolmap.c:read_ppm_map", "rdcolmap.c:_read_color_map"]}
{"id": "C68", "title": "Scan scripts and quantization tables in text files", "statement": "Any sequence of bytes without a number of more than 18 digits, taken as a scan script (-scans) or a file of quantization tables (-qtables), is read without undefined behaviour; an accepted script has at most 64 scans of one to four components, an accepted table file at most four tables of 64 elements. A script whose numbers are separated by white space, comments or single punctuation characters, with colons before progression parameters and semicolons between scans, yields exactly the scans written, with the parameters of a sequential scan where none are given, and is refused if there are more than 64. A table file yields exactly the tables written; more than four, or an incomplete last one, are refused. After whole scans, anything but a number, more than four components or other than four progression parameters are refused, and so is anything but numbers in a table file.", "quantifier": "all byte sequences; all scripts and tables, with any layout", "why_tests_cant": "Texts are unbounded; the tests use two scripts.", "anchors": ["rdswitch.c:text_getc", "rdswitch.c:read_text_integer", "rdswitch.c:read_quant_tables", "rdswitch.c:read_scan_integer", "rdswitch.c:read_scan_script"]}
